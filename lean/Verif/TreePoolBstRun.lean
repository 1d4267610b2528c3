import Verif.TreePoolWorld

/-! Helper lemmas: programs over binary search trees do in the static pool what they do elsewhere. -/

namespace Verif.TPool.B

open Prog
open Verif.Tree (Ptr Order St MemoryOk Below Allocated HoldsSized IsTree)
open Verif.Pool (returns_bind returns_pure)
open Verif.BST (Reads HoldsTrees AnyTree fFind)

variable {α : Type} {md : Sma.Mode} {c : Sma.Cfg} {G : Slots.Env} {K : Pool.Layout α} {E : PtrRep} {f : Nat → Nat}
  {S : Nat → Prop} {lt : α → α → Bool}

/-! ## `push` of an element that is present -/

/-- `insert` if there is nothing to insert. -/
def hitInsert (lt : α → α → Bool) (o : BST.Arg α) : Prog (St α) Ptr := do
  let root ← Tree.getRoot
  let (target, _) ← BST.insertLoop lt o root none
  if target ≠ none then pure target else Prog.fail .crash

/-- `push` if there is nothing to insert. -/
def hitPush (lt : α → α → Bool) (o : BST.Arg α) : Prog (St α) Unit := do
  let tree ← hitInsert lt o
  let root ← Tree.getRoot
  when (root = none) (Tree.updateRoot tree)
  let n ← Tree.getSize
  Tree.setSize (n + 1)

theorem hitInsert_sim (hc : Sma.Legal c) (hi : Inj f S) {o o' : BST.Arg α} (ho : ArgR f S o o') :
    Sim c G K E f S False (hitInsert lt o) (insert (poolTree md c K E) lt o') (PR f S) := by
  unfold hitInsert insert
  refine Sim.bind getRoot_sim fun r r' hr => ?_
  refine Sim.bind (insertLoop_sim hc hi ho _ _ _ _ hr PR.null) ?_
  rintro ⟨t, pa⟩ ⟨t', pa'⟩ ⟨ht, hpa⟩
  refine Sim.ite (not_congr ht.none_iff) (fun _ => Sim.pure ht) fun _ => ?_
  intro s w _ a s' hr
  cases hr

theorem hitPush_sim (hc : Sma.Legal c) (hi : Inj f S) {o o' : BST.Arg α} (ho : ArgR f S o o') :
    Sim c G K E f S False (hitPush lt o) (push (poolTree md c K E) lt o') Eq := by
  unfold hitPush push
  refine Sim.bind (hitInsert_sim hc hi ho) fun t t' ht => ?_
  repeat sim1

theorem hitPush_ok {s : St α} {t : Tree.T α} {x : α} {o : BST.Arg α} {z : Nat} (h : IsTree s t) (hx : Reads s o x)
    (hf : fFind lt x t = some z) : Returns (hitPush lt o) s () { s with size := s.size + 1 } := by
  have hi : Returns (hitInsert lt o) s (some z) s := by
    unfold hitInsert Returns
    rw [bind_returns (show Returns Tree.getRoot s s.root s from rfl), h.root, bind_returns (BST.insertLoop_dup h.rep hx hf)]
    rfl
  have hr : s.root ≠ none := by
    rw [h.root]
    cases t with
    | nil => cases hf
    | node l p d r => simp [Tree.T.root]
  unfold hitPush Returns
  rw [bind_returns hi, bind_returns (show Returns Tree.getRoot s s.root s from rfl)]
  simp only [Prog.when, hr, if_false]
  rfl

/-! ## `push` on an object -/

section
variable {w w' : Tree.World α} {pw : World} {g : Nat → Option (Tree.T α)} {cc : Nat → Nat}

/-- `push` releases nothing, and uses one more node if the element is new. -/
theorem push_keeps (h : HoldsSized AnyTree w g cc) (hcc : ∀ k t, g k = some t → t.count ≤ cc k)
    {k : Nat} {t : Tree.T α} (hk : g k = some t) {o : BST.Arg α} {x : α}
    (hx : Reads w.mem o x) (hr : Returns (Tree.on k (BST.push lt o)) w () w') :
    HoldsTrees w' ∧ (∀ n, live w n → live w' n) ∧ (fFind lt x t = none → live w' w.mem.next) := by
  have hx' : Reads (w.load (t.root, cc k)) o x := by
    cases o with
    | val y => exact hx
    | ref p => exact hx
  refine ⟨?_, ?_⟩
  · obtain ⟨w2, r2, h2⟩ := BST.push_any (lt := lt) h hcc hk hx
    obtain ⟨_, rfl⟩ := r2.det hr
    exact h2
  cases hf : fFind lt x t with
  | some z =>
    have hd := BST.push_dup (h.load hk) hx' hf
    have e := Tree.on_returns (h.live hk) hd
    obtain ⟨_, rfl⟩ := e.det hr
    exact ⟨fun n hn => hn, fun e => by cases e⟩
  | none =>
    have hu : ∀ n, (w.load (t.root, cc k)).next ≤ n → (w.load (t.root, cc k)).dat n = none := h.base.fresh
    obtain ⟨_, s', r1, p1, p2, p3, p4, p5⟩ := BST.push_new (h.load hk) hu hx' hf
    have e := Tree.on_returns (h.live hk) r1
    obtain ⟨_, rfl⟩ := e.det hr
    have hp := BST.ptrs_ins (lt := lt) x (w.load (t.root, cc k)).next t
    have inT : ∀ n, n ∈ (BST.fIns lt x (w.load (t.root, cc k)).next t).ptrs → s'.dat n ≠ none := fun n hn => by
      obtain ⟨d, hd⟩ := p1.rep.live hn
      rw [hd]; simp
    refine ⟨fun n hn => ?_, fun _ => inT _ (hp.mem_iff.2 List.mem_cons_self)⟩
    show s'.dat n ≠ none
    by_cases e1 : n ∈ t.ptrs
    · exact inT n (hp.mem_iff.2 (List.mem_cons_of_mem _ e1))
    · by_cases e2 : n = (w.load (t.root, cc k)).next
      · exact inT n (hp.mem_iff.2 (List.mem_cons.2 (Or.inl e2)))
      · rw [(p5 n e1 e2).dat]; exact hn

theorem push_pool (hc : Sma.Legal c) (hfit : 8 * nodeWords K + 8 < 2 ^ 31) (h : HoldsSized AnyTree w g cc)
    (hcc : ∀ k t, g k = some t → t.count ≤ cc k)
    (hR : WR c G K E f (live w) w pw) {k : Nat} {t : Tree.T α} (hk : g k = some t) {o o' : BST.Arg α} {x : α}
    (hx : Reads w.mem o x) (ho : ArgR f (live w) o o') (hr : Returns (Tree.on k (BST.push lt o)) w () w') :
    ((Over c G (nodeWords K) w' ∧ (md = .port → Pool.NoRoom c pw.pool (Slots.size (nodeWords K)))) ∧
      Faults (on k (push (poolTree md c K E) lt o')) pw .crash) ∨
      ∃ f' pw', Returns (on k (push (poolTree md c K E) lt o')) pw () pw' ∧ WR c G K E f' (live w') w' pw' := by
  obtain ⟨⟨_, _, hH, _⟩, hkeep, hnew⟩ := push_keeps h hcc hk hx hr
  have hm : MemoryOk w' := hH.memory
  have hi := hR.inj hc
  have hx' : Reads (w.load (t.root, cc k)) o x := by
    cases o with
    | val y => exact hx
    | ref p => exact hx
  cases hf : fFind lt x t with
  | some z =>
    have hd := BST.push_dup (h.load hk) hx' hf
    have e := Tree.on_returns (h.live hk) hd
    obtain ⟨_, rfl⟩ := e.det hr
    obtain ⟨_, pw', g1, g2, _⟩ := on_sim hi k (hitPush_sim (md := md) (lt := lt) hc hi ho) w pw hR () _
      (Tree.on_returns (h.live hk) (hitPush_ok (h.load hk) hx' hf))
    exact Or.inr ⟨f, pw', g1, g2.restart hm⟩
  | none =>
    rcases on_simX hR k (push_sim (md := md) (lt := lt) hc hi hfit ho) hr with ⟨h1, h2⟩ | ⟨f', S', a', pw', h1, h2, _⟩
    · exact Or.inl ⟨⟨h1.over hkeep (m := w.mem.next) (fun hn => hn (h.base.fresh _ (Nat.le_refl _))) (hnew hf), h1.2⟩, h2⟩
    · exact Or.inr ⟨f', pw', h1, h2.restart hm⟩

end

theorem push_alive {w w1 : Tree.World α} {k : Nat} {o : BST.Arg α} (r1 : Returns (Tree.on k (BST.push lt o)) w () w1) :
    w1.obj k ≠ none := by
  obtain ⟨o, s, _, _, rfl⟩ := on_inv r1
  show Tree.upd _ _ _ _ ≠ none
  rw [Tree.upd_self]; simp

theorem pushAll_keeps (k : Nat) (xs : List α) {w w' : Tree.World α} (h : HoldsTrees w)
    (hk : w.obj k ≠ none) (hr : Returns (BST.pushAll lt k xs) w () w') :
    HoldsTrees w' ∧ ∀ n, live w n → live w' n := by
  induction xs generalizing w with
  | nil =>
    obtain ⟨_, rfl⟩ := returns_pure hr
    exact ⟨h, fun n hn => hn⟩
  | cons x xs ih =>
    obtain ⟨_, w1, r1, r2⟩ := returns_bind hr
    obtain ⟨g, cc, hh, hcc⟩ := h
    obtain ⟨t, ht⟩ := BST.get_tree hh hk
    obtain ⟨h1, hkeep, _⟩ := push_keeps hh hcc ht (o := .val x) rfl r1
    obtain ⟨e1, e2⟩ := ih h1 (push_alive r1) r2
    exact ⟨e1, fun n hn => e2 n (hkeep n hn)⟩

theorem pushAll_pool (hc : Sma.Legal c) (hfit : 8 * nodeWords K + 8 < 2 ^ 31) (k : Nat) (xs : List α)
    {w w' : Tree.World α} {pw : World} {f : Nat → Nat} (h : HoldsTrees w) (hR : WR c G K E f (live w) w pw)
    (hk : w.obj k ≠ none) (hr : Returns (BST.pushAll lt k xs) w () w') :
    (Over c G (nodeWords K) w' ∧ Faults (pushAll (poolTree md c K E) lt k xs) pw .crash) ∨
      ∃ f' pw', Returns (pushAll (poolTree md c K E) lt k xs) pw () pw' ∧ WR c G K E f' (live w') w' pw' := by
  induction xs generalizing w pw f with
  | nil =>
    obtain ⟨_, rfl⟩ := returns_pure hr
    exact Or.inr ⟨f, pw, rfl, hR⟩
  | cons x xs ih =>
    obtain ⟨_, w1, r1, r2⟩ := returns_bind hr
    obtain ⟨g, cc, hh, hcc⟩ := h
    obtain ⟨t, ht⟩ := BST.get_tree hh hk
    obtain ⟨h1, _, _⟩ := push_keeps hh hcc ht (o := .val x) rfl r1
    rcases push_pool (md := md) hc hfit hh hcc hR ht (o := .val x) (o' := .val x) rfl rfl r1 with
      ⟨⟨h2, _⟩, h3⟩ | ⟨f', pw', h2, h3⟩
    · exact Or.inl ⟨h2.mono (pushAll_keeps k xs h1 (push_alive r1) r2).2, faults_bind h3⟩
    · rcases ih h1 h3 (push_alive r1) r2 with ⟨e2, e3⟩ | ⟨f2, pw2, e2, e3⟩
      · exact Or.inl ⟨e2, Faults.bind_after h2 e3⟩
      · refine Or.inr ⟨f2, pw2, ?_, e3⟩
        unfold Returns pushAll
        rw [bind_returns h2]; exact e2

/-! ## Statements -/

/-- Statements that ask for no node. -/
theorem step_sim (hc : Sma.Legal c) (hfit : 8 * nodeWords K + 8 < 2 ^ 31) (hi : Inj f S) (op : BST.Op α)
    (hop : (∀ k xs, op ≠ .newFrom k xs) ∧ (∀ k x, op ≠ .push k x) ∧ ∀ k j x, op ≠ .pushAt k j x) :
    WSim c G K E f S (BST.step lt op) (step (poolTree md c K E) lt op) Eq := by
  cases op with
  | new k => exact WSim.bind (newObj_sim k) fun _ _ _ => WSim.pure rfl
  | newFrom k xs => exact absurd rfl (hop.1 k xs)
  | push k x => exact absurd rfl (hop.2.1 k x)
  | pushAt k j x => exact absurd rfl (hop.2.2 k j x)
  | pop k x => exact WSim.bind (on_sim hi k (pop_sim hc hi hfit (o := .val x) (o' := .val x) rfl)) fun _ _ _ => WSim.pure rfl
  | popAt k j x =>
    refine WSim.bind (on_sim hi j (find_sim hc hi x)) fun p p' hp => ?_
    exact WSim.bind (on_sim hi k (pop_sim hc hi hfit (o := .ref p) (o' := .ref p') hp)) fun _ _ _ => WSim.pure rfl
  | erase k x =>
    refine on_sim hi k (Sim.bind (find_sim hc hi x) fun p p' hp => ?_)
    exact Sim.bind (erase_sim hc hi hfit hp) fun q q' hq => readIt_sim hc hi hq
  | clear k => exact WSim.bind (on_sim hi k (clear_sim hc hi hfit)) fun _ _ _ => WSim.pure rfl
  | move d s => exact WSim.bind (moveObj_sim hc hi hfit d s) fun _ _ _ => WSim.pure rfl
  | moveNew d s =>
    exact WSim.bind (newObj_sim d) fun _ _ _ => WSim.bind (moveObj_sim hc hi hfit d s) fun _ _ _ => WSim.pure rfl
  | drop k => exact WSim.bind (dropObj_sim hc hi hfit k) fun _ _ _ => WSim.pure rfl

/-- For lack of memory only statements that ask for nodes stop, and `push` only if there is no room. -/
def mayStop (c : Sma.Cfg) (N : Nat) (s : Sma.St) : BST.Op α → Prop
  | .push _ _ => Pool.NoRoom c s (Slots.size N)
  | .newFrom _ _ | .pushAt _ _ _ => True
  | _ => False

theorem step_pool (hc : Sma.Legal c) (hfit : 8 * nodeWords K + 8 < 2 ^ 31) (hirr : ∀ a, lt a a = false)
    {w w' : Tree.World α} {pw : World} {f : Nat → Nat} (h : HoldsTrees w) (hR : WR c G K E f (live w) w pw)
    (op : BST.Op α) (ha : BST.Alive op w) {out : Option α} (hr : Returns (BST.step lt op) w out w') :
    ((Over c G (nodeWords K) w' ∧ (md = .port → mayStop c (nodeWords K) pw.pool op)) ∧
      Faults (step (poolTree md c K E) lt op) pw .crash) ∨
      ∃ f' pw', Returns (step (poolTree md c K E) lt op) pw out pw' ∧ WR c G K E f' (live w') w' pw' := by
  have hH : HoldsTrees w' := by
    rcases BST.step_any hirr h ha with ⟨y, w2, h1, h2⟩ | h1
    · obtain ⟨_, rfl⟩ := h1.det hr
      exact h2
    · exact absurd (h1.symm.trans hr) (by simp)
  have hm : MemoryOk w' := by
    obtain ⟨_, _, h2, _⟩ := hH
    exact h2.memory
  have hi := hR.inj hc
  have noNode (hop : (∀ k xs, op ≠ .newFrom k xs) ∧ (∀ k x, op ≠ .push k x) ∧ ∀ k j x, op ≠ .pushAt k j x) :
      ∃ f' pw', Returns (step (poolTree md c K E) lt op) pw out pw' ∧ WR c G K E f' (live w') w' pw' := by
    obtain ⟨a', pw', h1, h2, rfl⟩ := step_sim (md := md) (lt := lt) hc hfit hi op hop w pw hR out w' hr
    exact ⟨f, pw', h1, h2.restart hm⟩
  cases op with
  | newFrom k xs =>
    obtain ⟨_, w1, r1, r2⟩ := returns_bind hr
    obtain ⟨_, w2, r3, r4⟩ := returns_bind r2
    obtain ⟨rfl, rfl⟩ := returns_pure r4
    obtain ⟨_, pw1, g1, g2, _⟩ := newObj_sim k w pw hR _ _ r1
    have hw1 : HoldsTrees w1 := by
      obtain ⟨gg, cc, hh, hcc⟩ := h
      cases r1
      exact .upd (hh.newObj (BST.get_none hh ha) trivial) hcc (Nat.le_refl _)
    have hk1 : w1.obj k ≠ none := by
      cases r1
      show Tree.upd _ _ _ _ ≠ none
      rw [Tree.upd_self]; simp
    have hm1 : MemoryOk w1 := by
      obtain ⟨_, _, h2, _⟩ := hw1
      exact h2.memory
    rcases pushAll_pool (md := md) hc hfit k xs hw1 (g2.restart hm1) hk1 r3 with ⟨h2, h3⟩ | ⟨f', pw', h2, h3⟩
    · exact Or.inl ⟨⟨h2, fun _ => trivial⟩, Faults.bind_after g1 (faults_bind h3)⟩
    · refine Or.inr ⟨f', pw', ?_, h3⟩
      show (do newObj k; pushAll (poolTree md c K E) lt k xs; pure none : Prog World (Option α)) pw = _
      rw [bind_returns g1, bind_returns h2]; rfl
  | push k x =>
    obtain ⟨_, w1, r1, r2⟩ := returns_bind hr
    obtain ⟨rfl, rfl⟩ := returns_pure r2
    obtain ⟨gg, cc, hh, hcc⟩ := h
    obtain ⟨t, ht⟩ := BST.get_tree hh ha
    rcases push_pool (md := md) hc hfit hh hcc hR ht (o := .val x) (o' := .val x) rfl rfl r1 with
      ⟨h2, h3⟩ | ⟨f', pw', h2, h3⟩
    · exact Or.inl ⟨h2, faults_bind h3⟩
    · refine Or.inr ⟨f', pw', ?_, h3⟩
      show (do on k (push (poolTree md c K E) lt (.val x)); pure none : Prog World (Option α)) pw = _
      rw [bind_returns h2]; rfl
  | pushAt k j x =>
    obtain ⟨it, w1, r1, r2⟩ := returns_bind hr
    obtain ⟨_, w2, r3, r4⟩ := returns_bind r2
    obtain ⟨rfl, rfl⟩ := returns_pure r4
    obtain ⟨gg, cc, hh, hcc⟩ := h
    obtain ⟨t, ht⟩ := BST.get_tree hh ha.1
    obtain ⟨u, hu⟩ := BST.get_tree hh ha.2
    obtain ⟨it', q1, q2⟩ := BST.reads_or (lt := lt) hh hu x
    obtain ⟨rfl, rfl⟩ := q1.det r1
    obtain ⟨p', pw1, g1, g2, g3⟩ := on_sim hi j (find_sim (md := md) (lt := lt) hc hi x) _ pw hR _ _ r1
    rcases q2 with rfl | ⟨v, q2⟩
    · obtain ⟨o, s, e1, e2, _⟩ := on_inv r3
      have e1' := hh.live ht
      rw [e1] at e1'
      cases e1'
      exact absurd ((BST.push_refnull (lt := lt) _ (hh.load ht)).symm.trans e2) (by simp)
    · rcases push_pool (md := md) hc hfit hh hcc g2 ht (o := .ref it') (o' := .ref p') q2 g3 r3 with
        ⟨⟨h2, _⟩, h3⟩ | ⟨f', pw', h2, h3⟩
      · exact Or.inl ⟨⟨h2, fun _ => trivial⟩, Faults.bind_after g1 (faults_bind h3)⟩
      · refine Or.inr ⟨f', pw', ?_, h3⟩
        show (do let it ← on j (find (poolTree md c K E) lt x); on k (push (poolTree md c K E) lt (.ref it)); pure none :
          Prog World (Option α)) pw = _
        rw [bind_returns g1, bind_returns h2]; rfl
  | new k => exact Or.inr (noNode ⟨nofun, nofun, nofun⟩)
  | pop k x => exact Or.inr (noNode ⟨nofun, nofun, nofun⟩)
  | popAt k j x => exact Or.inr (noNode ⟨nofun, nofun, nofun⟩)
  | erase k x => exact Or.inr (noNode ⟨nofun, nofun, nofun⟩)
  | clear k => exact Or.inr (noNode ⟨nofun, nofun, nofun⟩)
  | move d s => exact Or.inr (noNode ⟨nofun, nofun, nofun⟩)
  | moveNew d s => exact Or.inr (noNode ⟨nofun, nofun, nofun⟩)
  | drop k => exact Or.inr (noNode ⟨nofun, nofun, nofun⟩)

end Verif.TPool.B
