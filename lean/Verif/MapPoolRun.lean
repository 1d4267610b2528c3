import Verif.TreePoolRun
import Verif.Spec.MapPool
import Verif.MapLemmas

/-! Helper lemmas: programs over maps in the static pool. -/

namespace Verif.TPool.M

open Prog
open Verif.Tree (Ptr St MemoryOk Allocated)
open Verif.Pool (returns_bind returns_pure)
open Verif.LPool (Total Finite)
open Verif.AVL (StrictWeak)
open Verif.Map (byKey Maps AtKey has)

variable {K V : Type} {md : Sma.Mode} {c : Sma.Cfg} {G : Slots.Env} {L : Pool.Layout (AVL.D (K × V))} {E : PtrRep} {f : Nat → Nat}
  {S : Nat → Prop} {ro : Prop} {p p' : Ptr} {lt : K → K → Bool} {dflt : V}

theorem deref_sim (hc : Sma.Legal c) (hp : PR f S p p') :
    Sim c G L E f S ro (AVL.deref p) (A.deref (poolTree md c L E) p') Eq := by
  unfold AVL.deref A.deref
  refine Sim.bind (getData_sim hc hp) ?_
  rintro d _ rfl
  exact Sim.pure rfl

theorem find_sim (hc : Sma.Legal c) (hi : Inj f S) (key : K) :
    Sim c G L E f S ro (Map.find lt dflt key) (find (poolTree md c L E) lt dflt key) (PR f S) := A.find_sim hc hi _

/-- The end of `operator[]`. -/
theorem again_sim (hc : Sma.Legal c) (hi : Inj f S) (key : K) :
    Sim c G L E f S ro (do let it ← Map.find lt dflt key; let _ ← AVL.deref it; pure it)
      (do let it ← find (poolTree md c L E) lt dflt key; let _ ← A.deref (poolTree md c L E) it; pure it) (PR f S) :=
  Sim.bind (find_sim hc hi key) fun _ _ hp => Sim.bind (deref_sim hc hp) fun _ _ _ => Sim.pure hp

theorem readVal_sim (hc : Sma.Legal c) (hp : PR f S p p') :
    Sim c G L E f S ro (Map.readVal p) (readVal (poolTree md c L E) p') Eq := by
  unfold Map.readVal readVal
  refine Sim.bind (deref_sim hc hp) ?_
  rintro d _ rfl
  exact Sim.pure rfl

theorem writeVal_sim (hc : Sma.Legal c) (hp : PR f S p p') (v : V) :
    Sim c G L E f S False (Map.writeVal p v) (writeVal (poolTree md c L E) p' v) Eq := by
  unfold Map.writeVal writeVal
  refine Sim.bind (getData_sim hc hp) ?_
  rintro d _ rfl
  exact setData_sim hc hp _

/-- `operator[]` asks for a node only if the key is absent. -/
theorem index_sim (hc : Sma.Legal c) (hi : Inj f S) (hfit : 8 * nodeWords L + 8 < 2 ^ 31) (key : K) {s s' : Map.St K V}
    {z : PSt} (hR : R c G L E f S s z) (hS : ∀ n, S n → s.dat n ≠ none) (hr : Returns (Map.index lt dflt key) s p s') :
    (Returns (Map.find lt dflt key) s none s ∧ Full md c G (nodeWords L) s z.pool ∧
      Faults (index (poolTree md c L E) lt dflt key) z .crash) ∨
    ∃ f' S' p' z', Ext f S f' S' ∧ Returns (index (poolTree md c L E) lt dflt key) z p' z' ∧ R c G L E f' S' s' z' ∧
      PR f' S' p p' := by
  obtain ⟨q, s1, r1, r2⟩ := returns_bind hr
  obtain ⟨q', z1, g1, g2, g3, g4⟩ := find_sim (ro := True) (md := md) (lt := lt) (dflt := dflt) hc hi key s z hR q s1 r1
  obtain ⟨rfl, rfl⟩ := g4 trivial
  by_cases hq : q = none
  · subst hq
    have hq' : q' = none := g3.none_iff.1 rfl
    subst hq'
    rw [if_pos rfl] at r2
    have hs : SimX md c G L E f S (do AVL.push (byKey lt) (key, dflt); let it ← Map.find lt dflt key; let _ ← AVL.deref it; pure it)
        (do A.push (poolTree md c L E) (byKey lt) (key, dflt); let it ← find (poolTree md c L E) lt dflt key
            let _ ← A.deref (poolTree md c L E) it; pure it) PR :=
      SimX.bindW (A.push_sim hc hi hfit _) fun f' S' _ hi' _ _ _ => again_sim hc hi' key
    have e : index (poolTree md c L E) lt dflt key z1 =
        (do A.push (poolTree md c L E) (byKey lt) (key, dflt); let it ← find (poolTree md c L E) lt dflt key
            let _ ← A.deref (poolTree md c L E) it; pure it : Prog PSt Ptr) z1 := by
      unfold index
      rw [bind_returns g1, if_pos rfl]
    rcases hs s1 z1 hR hS p s' r2 with ⟨h1, h2⟩ | ⟨f', S', p', z', h0, h1, h2⟩
    · exact Or.inl ⟨r1, h1, e.trans h2⟩
    · exact Or.inr ⟨f', S', p', z', h0, e.trans h1, h2⟩
  · have hq' : q' ≠ none := fun e => hq (g3.none_iff.2 e)
    rw [if_neg hq] at r2
    obtain ⟨p', z', h1, h2, h3, _⟩ := again_sim (ro := False) (md := md) hc hi key s1 z1 hR p s' r2
    refine Or.inr ⟨f, S, p', z', ⟨fun n hn => ⟨hn, rfl⟩, hi⟩, ?_, h2, h3⟩
    unfold index Returns
    rw [bind_returns g1, if_neg hq']
    exact h1

theorem finite_step {sw sw' : Map.SWorld K V} (h : Finite sw) {op : Map.Op K V}
    (hs : Map.specStep lt dflt op sw = some sw') : Finite sw' := by
  have put : ∀ {sw : Map.SWorld K V}, Finite sw → ∀ k v, Finite (sw.put k v) := fun h k v => h.put k v
  cases op <;> simp only [Map.specStep, Option.bind_eq_some_iff] at hs
  case new => split at hs <;> cases hs; exact put h _ _
  case push => obtain ⟨_, _, hs⟩ := hs; split at hs <;> cases hs; exact put h _ _
  case pop => obtain ⟨_, _, hs⟩ := hs; cases hs; exact put h _ _
  case get => obtain ⟨_, _, hs⟩ := hs; cases hs; exact put h _ _
  case set => obtain ⟨_, _, hs⟩ := hs; cases hs; exact put h _ _
  case assign => obtain ⟨_, _, _, _, _, _, hs⟩ := hs; cases hs; exact put (put (put h _ _) _ _) _ _
  case clear => obtain ⟨_, _, hs⟩ := hs; cases hs; exact put h _ _
  case copy => obtain ⟨_, _, _, _, hs⟩ := hs; cases hs; exact put h _ _
  case copyNew => split at hs <;> simp only [Option.bind_eq_some_iff, reduceCtorEq] at hs; obtain ⟨_, _, hs⟩ := hs; cases hs; exact put h _ _
  case drop => obtain ⟨_, _, hs⟩ := hs; cases hs; exact put h _ _

theorem total {w : Map.World K V} {sw : Map.SWorld K V} {g} (h : Maps lt w sw g) (hf : Finite sw) {n : Nat}
    (hn : Nodes w n) : Total sw n := A.total h.set hf hn

theorem AtKey.live {w : Map.World K V} {sw : Map.SWorld K V} {g} (h : Maps lt w sw g) {k n : Nat} {key : K}
    (ha : AtKey lt g k key n) : live w n := by
  obtain ⟨t, e, h1, h2, _⟩ := ha
  refine (h.holds.allocated).2 ⟨k, t, h1, ?_⟩
  rw [AVL.ptrs_items]
  exact List.mem_map.2 ⟨_, h2, rfl⟩

/-- Nodes that are in use before and after stay where they are. -/
def Stay (f : Nat → Nat) (w : Map.World K V) (f' : Nat → Nat) (w' : Map.World K V) : Prop :=
  ∀ n, live w n → live w' n → f' n = f n

theorem len_with (hw : StrictWeak lt) {l : List (K × V)} {key : K} {v : V} (hp : has lt l key = false) :
    (Map.with_ lt l key v).length = l.length + 1 :=
  AVL.length_with (lt := byKey lt) (x := (key, v)) (Map.byKey_weak hw) (AVL.not_any.2 hp)

/-- `operator[]` on a map in the pool. -/
theorem index_pool (hc : Sma.Legal c) (hfit : 8 * nodeWords L + 8 < 2 ^ 31) (hw : StrictWeak lt) {w : Map.World K V}
    {sw : Map.SWorld K V} {g} {pw : World} (h : Maps lt w sw g) (hR : WR c G L E f (live w) w pw) {k : Nat}
    {l : List (K × V)} (hk : sw k = some l) (key : K) :
    ∃ w' g' n, Returns (Tree.on k (Map.index lt dflt key)) w (some n) w' ∧
      Maps lt w' (sw.put k (some (Map.touch lt dflt l key))) g' ∧ AtKey lt g' k key n ∧
      (∀ j key' q, AtKey lt g j key' q → AtKey lt g' j key' q) ∧
      (((G.solo → Finite sw → ∃ m, Total (sw.put k (some (Map.touch lt dflt l key))) m ∧ c.M / (8 * nodeWords L) < m) ∧
        (md = .port → Pool.NoRoom c pw.pool (Slots.size (nodeWords L))) ∧
        Faults (on k (index (poolTree md c L E) lt dflt key)) pw .crash) ∨
      ∃ f' pw', Returns (on k (index (poolTree md c L E) lt dflt key)) pw (some (f' n)) pw' ∧
        WR c G L E f' (live w') w' pw' ∧ Stay f w f' w') := by
  obtain ⟨w', g', n, h1, h2, h3, h4⟩ := Map.index_ok (dflt := dflt) hw h hk key
  refine ⟨w', g', n, h1, h2, h3, h4, ?_⟩
  obtain ⟨o, s, e1, e2, rfl⟩ := on_inv h1
  have ho : pw.obj k = some (o.1.map f, o.2) := by rw [hR.obj k, e1]; rfl
  rcases index_sim (md := md) hc (hR.inj hc) hfit key (hR.load e1) (fun n hn => hn) e2 with
    ⟨q1, ⟨hful, hno⟩, q3⟩ | ⟨f', S', p', z, q0, q1, q2, q3⟩
  · refine Or.inl ⟨fun hG hf => ?_, hno, on_faults ho q3⟩
    obtain ⟨bs, b1, b2, b3⟩ := hful hG
    refine ⟨bs.length + 1, ?_, by omega⟩
    have ht := total h hf (n := bs.length) ⟨bs, b1, b2, rfl⟩
    have hp : has lt l key = false := by
      cases hp : has lt l key with
      | false => rfl
      | true =>
        obtain ⟨m, m1, _⟩ := Map.find_present (dflt := dflt) hw h hk key hp
        obtain ⟨o', s', i1, i2, _⟩ := on_inv m1
        rw [e1] at i1
        cases i1
        cases (i2.det q1).1
    have ht' : Map.touch lt dflt l key = Map.with_ lt l key dflt := by simp [Map.touch, hp]
    rw [ht']
    exact total_add hk (len_with hw hp) ht
  · have hR' := (hR.store q0 k q2).restart h2.holds.memory
    refine Or.inr ⟨f', _, ?_, hR', fun n hn _ => (q0.1 n hn).2⟩
    have := on_returns ho q1
    rw [q3.1] at this
    exact this

/-- Reading a value. -/
theorem readVal_pool (hc : Sma.Legal c) {w w' : Map.World K V} {pw : World} (hR : WR c G L E f (live w) w pw) {k n : Nat} {v : V}
    (hn : live w n) (hr : Returns (Tree.on k (Map.readVal (some n))) w v w') :
    Returns (on k (readVal (poolTree md c L E) (some (f n)))) pw v pw :=
  on_observe hR k (readVal_sim hc (PR.node hn)) hr

theorem live_write {w w' : Map.World K V} {k n : Nat} {v : V} (hr : Returns (Tree.on k (Map.writeVal (some n) v)) w () w') {x : Nat}
    (hx : live w' x) : live w x := by
  obtain ⟨o, s, e1, e2, rfl⟩ := on_inv hr
  obtain ⟨d, s1, q1, q2⟩ := returns_bind e2
  obtain ⟨rfl, m, h1, hd⟩ := returns_getData q1
  cases h1
  obtain ⟨m, s2, q3, q4⟩ := returns_bind q2
  obtain ⟨rfl, h1, _⟩ := returns_touch q3
  cases h1
  cases q4
  intro hn
  apply hx
  show Tree.upd _ _ _ _ = none
  have : x ≠ n := by rintro rfl; exact absurd (hd.symm.trans hn) (by simp)
  rw [Tree.upd_ne _ _ this]; exact hn

/-- Writing a value. -/
theorem writeVal_pool (hc : Sma.Legal c) {w w' : Map.World K V} {sw' : Map.SWorld K V} {g'} {pw : World}
    (hR : WR c G L E f (live w) w pw) {k n : Nat} {v : V} (hn : live w n) (h : Maps lt w' sw' g')
    (hr : Returns (Tree.on k (Map.writeVal (some n) v)) w () w') :
    ∃ pw', Returns (on k (writeVal (poolTree md c L E) (some (f n)) v)) pw () pw' ∧ WR c G L E f (live w') w' pw' := by
  obtain ⟨_, pw', h1, h2, rfl⟩ := on_sim (hR.inj hc) k (writeVal_sim (md := md) hc (PR.node hn) v) w pw hR _ _ hr
  exact ⟨pw', h1, h2.restart h.holds.memory⟩

/-- The statement asks for no node. -/
def NoNode : Map.Op K V → Prop
  | .push .. | .get .. | .set .. | .assign .. => False
  | _ => True

/-- Statements that ask for no node. -/
theorem step_sim (hc : Sma.Legal c) (hfit : 8 * nodeWords L + 8 < 2 ^ 31) (hi : Inj f S) (op : Map.Op K V)
    (hop : NoNode op) :
    WSim c G L E f S (Map.step lt dflt op) (step (poolTree md c L E) lt dflt op) Eq := by
  cases op with
  | new k => exact WSim.bind (newObj_sim k) fun _ _ _ => WSim.pure rfl
  | push k x => exact hop.elim
  | get k x => exact hop.elim
  | set k x => exact hop.elim
  | assign k x => exact hop.elim
  | pop k x =>
    exact WSim.bind (on_sim hi k (A.pop_sim hc hi hfit (o := .val (x, dflt)) (o' := .val (x, dflt)) rfl)) fun _ _ _ => WSim.pure rfl
  | clear k => exact WSim.bind (on_sim hi k (clear_sim hc hi hfit)) fun _ _ _ => WSim.pure rfl
  | copy d s => exact WSim.bind (copyObj_sim d s) fun _ _ _ => WSim.pure rfl
  | copyNew d s => exact WSim.bind (copyObj_sim d s) fun _ _ _ => WSim.pure rfl
  | drop k => exact WSim.bind (dropObj_sim hc hi hfit k) fun _ _ _ => WSim.pure rfl

/-- One map with the same number of keys. -/
theorem total_same {α : Type} {sw : Nat → Option (List α)} {k n : Nat} {l l' : List α} (hk : sw k = some l)
    (hl : l'.length = l.length) (h : Total sw n) : Total (fun j => if j = k then some l' else sw j) n := by
  obtain ⟨ks, h1, h2, rfl⟩ := h
  refine ⟨ks, h1, fun j => ?_, ?_⟩
  · rw [h2]
    by_cases e : j = k
    · subst e; simp [hk]
    · simp [e]
  · congr 1
    refine List.map_congr_left fun j _ => ?_
    by_cases e : j = k
    · subst e; simp [hk, hl]
    · simp [e]

theorem put_at {sw : Map.SWorld K V} {k : Nat} {v : Option (List (K × V))} : (sw.put k v) k = v := if_pos rfl

/-- Nodes whose keys stay are still in use. -/
theorem live_mono (hw : StrictWeak lt) {w w' : Map.World K V} {sw sw' : Map.SWorld K V} {g g'} (h : Maps lt w sw g)
    (h' : Maps lt w' sw' g') (hk : ∀ j key q, AtKey lt g j key q → AtKey lt g' j key q) {x : Nat} (hx : live w x) : live w' x := by
  obtain ⟨k, t, h1, h2⟩ := (h.holds.allocated).1 hx
  rw [AVL.ptrs_items] at h2
  obtain ⟨⟨y, e⟩, h3, rfl⟩ := List.mem_map.1 h2
  exact AtKey.live h' (hk k e.1 _ ⟨t, e, h1, h3, hw.irrefl _, hw.irrefl _⟩)

/-- `operator[]` does not remove keys. -/
theorem total_touch (hw : StrictWeak lt) {sw : Map.SWorld K V} {k n : Nat} {l : List (K × V)} (hk : sw k = some l)
    (key : K) (h : Total sw n) : ∃ m, n ≤ m ∧ Total (sw.put k (some (Map.touch lt dflt l key))) m := by
  unfold Map.touch
  split
  · rw [Map.put_same hk]; exact ⟨n, Nat.le_refl _, h⟩
  · rename_i hp
    exact ⟨n + 1, by omega, total_add hk (len_with hw (by simpa using hp)) h⟩

theorem total_write {sw : Map.SWorld K V} {k n : Nat} {l : List (K × V)} (hk : sw k = some l) (key : K) (v : V)
    (h : Total sw n) : Total (sw.put k (some (Map.write lt l key v))) n :=
  total_same hk (by unfold Map.write; rw [List.length_map]) h

/-- For lack of memory only statements that ask for nodes stop, and those that ask for one only if there is
no room. -/
def mayStop (c : Sma.Cfg) (N : Nat) (s : Sma.St) : Map.Op K V → Prop
  | .push .. | .get .. | .set .. => Pool.NoRoom c s (Slots.size N)
  | .assign .. => True
  | _ => False

theorem step_any (hc : Sma.Legal c) (hfit : 8 * nodeWords L + 8 < 2 ^ 31) (hw : StrictWeak lt) {w : Map.World K V}
    {sw sw' : Map.SWorld K V} {g} {pw : World} {f : Nat → Nat} (h : Maps lt w sw g)
    (hR : WR c G L E f (live w) w pw) (op : Map.Op K V) (hs : Map.specStep lt dflt op sw = some sw') (hsafe : Map.Safe lt op sw) :
    ∃ w' g', Returns (Map.step lt dflt op) w (Map.specOut lt dflt op sw) w' ∧ Maps lt w' sw' g' ∧
      (∀ j key n, AtKey lt g j key n → Map.Keeps lt j key op → AtKey lt g' j key n) ∧
    ((((G.solo → Finite sw → ∃ n, Total sw' n ∧ c.M / (8 * nodeWords L) < n) ∧
        (md = .port → mayStop c (nodeWords L) pw.pool op)) ∧ Faults (step (poolTree md c L E) lt dflt op) pw .crash) ∨
     (∃ f' pw', Returns (step (poolTree md c L E) lt dflt op) pw (Map.specOut lt dflt op sw) pw' ∧
        WR c G L E f' (live w') w' pw' ∧ Stay f w f' w')) := by
  obtain ⟨w', g', r1, hM, hK⟩ := Map.step_ok hw h hs hsafe
  refine ⟨w', g', r1, hM, hK, ?_⟩
  have hi := hR.inj hc
  have noNode (hop : NoNode op) :
      ∃ f' pw', Returns (step (poolTree md c L E) lt dflt op) pw (Map.specOut lt dflt op sw) pw' ∧
        WR c G L E f' (live w') w' pw' ∧ Stay f w f' w' := by
    obtain ⟨a', pw', h1, h2, rfl⟩ := step_sim (md := md) (lt := lt) (dflt := dflt) hc hfit hi op hop w pw hR _ w' r1
    have h2 := h2.restart hM.holds.memory
    exact ⟨f, pw', h1, h2, fun _ _ _ => rfl⟩
  cases op with
  | push k key v =>
    obtain ⟨_, w1, q1, q2⟩ := returns_bind r1
    obtain ⟨e, rfl⟩ := returns_pure q2
    obtain ⟨o, s, e1, e2, rfl⟩ := on_inv q1
    have ho : pw.obj k = some (o.1.map f, o.2) := by rw [hR.obj k, e1]; rfl
    rcases A.push_sim (md := md) (lt := byKey lt) hc hi hfit (key, v) _ _ (hR.load e1) (fun n hn => hn) _ _ e2 with
      ⟨⟨hful, hno⟩, h2⟩ | ⟨f', S', a', z, h0, h1, h2, _⟩
    · refine Or.inl ⟨⟨fun hG hf => ?_, hno⟩, faults_bind (on_faults ho h2)⟩
      obtain ⟨bs, b1, b2, b3⟩ := hful hG
      have ht := total h hf (n := bs.length) ⟨bs, b1, b2, rfl⟩
      simp only [Map.specStep, Option.bind_eq_some_iff] at hs
      obtain ⟨l, hl, hs⟩ := hs
      split at hs
      · cases hs
      · rename_i ha
        cases hs
        exact ⟨bs.length + 1, total_add hl (len_with hw (by simpa using ha)) ht, by omega⟩
    · have h2' := (hR.store h0 k h2).restart hM.holds.memory
      refine Or.inr ⟨f', _, ?_, h2', fun n hn _ => (h0.1 n hn).2⟩
      show (do on k (A.push (poolTree md c L E) (byKey lt) (key, v)); pure none : Prog World (Option V)) pw = _
      rw [bind_returns (on_returns ho h1)]; rfl
  | get k key =>
    simp only [Map.specStep, Option.bind_eq_some_iff] at hs
    obtain ⟨l, hk, hs⟩ := hs
    cases hs
    obtain ⟨w1, g1, n, i1, i2, i3, _, i5⟩ := index_pool (md := md) (dflt := dflt) hc hfit hw h hR hk key
    have hr := Map.readVal_ok hw i2 (l := Map.touch lt dflt l key) (by simp [Map.SWorld.put]) i3 dflt
    have r2 : Returns (Map.step lt dflt (.get k key)) w (some ((Map.value lt (Map.touch lt dflt l key) key).getD dflt)) w1 := by
      unfold Returns
      simp only [Map.step]
      rw [bind_returns i1, bind_returns hr]; rfl
    obtain ⟨ev, rfl⟩ := r2.det r1
    rcases i5 with ⟨j1, j0, j2⟩ | ⟨f', pw', j1, j2, j3⟩
    · exact Or.inl ⟨⟨j1, j0⟩, faults_bind j2⟩
    · refine Or.inr ⟨f', pw', ?_, j2, j3⟩
      unfold Returns
      simp only [step]
      rw [bind_returns j1, bind_returns (readVal_pool (md := md) hc j2 (AtKey.live i2 i3) hr), ← ev]; rfl
  | set k key v =>
    simp only [Map.specStep, Option.bind_eq_some_iff] at hs
    obtain ⟨l, hk, hs⟩ := hs
    cases hs
    obtain ⟨w1, g1, n, i1, i2, i3, _, i5⟩ := index_pool (md := md) (dflt := dflt) hc hfit hw h hR hk key
    obtain ⟨w2, g2, k1, k2, k3⟩ := Map.writeVal_ok hw i2 (l := Map.touch lt dflt l key) (by simp [Map.SWorld.put]) i3 v
    have r2 : Returns (Map.step lt dflt (.set k key v)) w none w2 := by
      unfold Returns
      simp only [Map.step]
      rw [bind_returns i1, bind_returns k1]; rfl
    obtain ⟨_, rfl⟩ := r2.det r1
    rcases i5 with ⟨jt, jn, j2⟩ | ⟨f', pw', j1, j2, j3⟩
    · refine Or.inl ⟨⟨fun hG hf => ?_, jn⟩, faults_bind j2⟩
      obtain ⟨m, j0, j1⟩ := jt hG hf
      refine ⟨m, ?_, j1⟩
      have := total_write (lt := lt) (put_at (sw := sw)) key v j0
      have e : (sw.put k (some (Map.touch lt dflt l key))).put k (some (Map.write lt (Map.touch lt dflt l key) key v)) =
          sw.put k (some (Map.write lt (Map.touch lt dflt l key) key v)) := by
        funext j; by_cases e : j = k <;> simp [Map.SWorld.put, e]
      rwa [e] at this
    · obtain ⟨pw2, n1, n2⟩ := writeVal_pool (md := md) hc j2 (AtKey.live i2 i3) k2 k1
      refine Or.inr ⟨f', pw2, ?_, n2, fun x hx hx' => j3 x hx ?_⟩
      · unfold Returns
        simp only [step]
        rw [bind_returns j1, bind_returns n1]; rfl
      · exact live_write k1 hx'
  | assign k key j key' =>
    simp only [Map.specStep, Option.bind_eq_some_iff] at hs
    obtain ⟨l, hk, l1, hj, l2, hk2, hs⟩ := hs
    cases hs
    obtain ⟨w1, g1, n, i1, i2, i3, i4, i5⟩ := index_pool (md := md) (dflt := dflt) hc hfit hw h hR hk key
    obtain ⟨w2, g2, n', a1, a2, a3, a4⟩ := Map.index_ok (dflt := dflt) hw i2 hj key'
    have hr := Map.readVal_ok hw a2 (l := Map.touch lt dflt l1 key') put_at a3 dflt
    obtain ⟨w3, g3, b1, b2, b3⟩ := Map.writeVal_ok hw a2 hk2 (a4 _ _ _ i3) ((Map.value lt (Map.touch lt dflt l1 key') key').getD dflt)
    have r2 : Returns (Map.step lt dflt (.assign k key j key')) w none w3 := by
      unfold Returns
      simp only [Map.step]
      rw [bind_returns i1, bind_returns a1, bind_returns hr, bind_returns b1]; rfl
    obtain ⟨_, rfl⟩ := r2.det r1
    rcases i5 with ⟨jt, jn, j2⟩ | ⟨f1, pw1, j1, j2, j3⟩
    · refine Or.inl ⟨⟨fun hG hf => ?_, fun _ => trivial⟩, faults_bind j2⟩
      obtain ⟨m, j0, j1⟩ := jt hG hf
      obtain ⟨m', m1, m2⟩ := total_touch (dflt := dflt) hw hj key' j0
      exact ⟨m', total_write hk2 key _ m2, by omega⟩
    · obtain ⟨_, g2', _, c1, c2, c3, c4, c5⟩ := index_pool (md := md) (dflt := dflt) hc hfit hw i2 j2 hj key'
      obtain ⟨en, rfl⟩ := c1.det a1
      cases en
      rcases c5 with ⟨dt, _, d2⟩ | ⟨f2, pw2, d1, d2, d3⟩
      · refine Or.inl ⟨⟨fun hG hf => ?_, fun _ => trivial⟩, Faults.bind_after j1 (faults_bind d2)⟩
        obtain ⟨m, d0, d1⟩ := dt hG (hf.put _ _)
        exact ⟨m, total_write hk2 key _ d0, d1⟩
      · have hn2 := AtKey.live a2 (a4 _ _ _ i3)
        obtain ⟨pw3, n1, n2⟩ := writeVal_pool (md := md) hc d2 hn2 b2 b1
        rw [d3 n (AtKey.live i2 i3) hn2] at n1
        refine Or.inr ⟨f2, pw3, ?_, n2, fun x hx hx' => ?_⟩
        · unfold Returns
          simp only [step]
          rw [bind_returns j1, bind_returns d1, bind_returns (readVal_pool (md := md) hc d2 (AtKey.live a2 a3) hr),
            bind_returns n1]; rfl
        · have h1 := live_mono hw h i2 i4 hx
          rw [d3 x h1 (live_write b1 hx'), j3 x hx h1]
  | new k => exact Or.inr (noNode trivial)
  | pop k x => exact Or.inr (noNode trivial)
  | clear k => exact Or.inr (noNode trivial)
  | copy d s => exact Or.inr (noNode trivial)
  | copyNew d s => exact Or.inr (noNode trivial)
  | drop k => exact Or.inr (noNode trivial)

theorem step_pool (hc : Sma.Legal c) (hG : G.solo) (hfit : 8 * nodeWords L + 8 < 2 ^ 31) (hw : StrictWeak lt) {w : Map.World K V}
    {sw sw' : Map.SWorld K V} {g} {pw : World} {f : Nat → Nat} (h : Maps lt w sw g) (hf : Finite sw)
    (hR : WR c G L E f (live w) w pw) (op : Map.Op K V) (hs : Map.specStep lt dflt op sw = some sw') (hsafe : Map.Safe lt op sw) :
    ∃ w' g', Returns (Map.step lt dflt op) w (Map.specOut lt dflt op sw) w' ∧ Maps lt w' sw' g' ∧ Finite sw' ∧
      (∀ j key n, AtKey lt g j key n → Map.Keeps lt j key op → AtKey lt g' j key n) ∧
    (((∃ n, Total sw' n ∧ c.M / (8 * nodeWords L) < n) ∧ Faults (step (poolTree md c L E) lt dflt op) pw .crash) ∨
     ((∃ n, Total sw' n ∧ n ≤ c.M / (8 * nodeWords L)) ∧
      ∃ f' pw', Returns (step (poolTree md c L E) lt dflt op) pw (Map.specOut lt dflt op sw) pw' ∧
        WR c G L E f' (live w') w' pw' ∧ Stay f w f' w')) := by
  obtain ⟨w', g', h1, h2, h3, h4⟩ := step_any (md := md) hc hfit hw h hR op hs hsafe
  have hf' := finite_step hf hs
  refine ⟨w', g', h1, h2, hf', h3, ?_⟩
  rcases h4 with ⟨⟨q1, _⟩, q2⟩ | ⟨f', pw', q1, q2, q3⟩
  · exact Or.inl ⟨q1 hG hf, q2⟩
  · obtain ⟨bs, b1, b2, b3, _⟩ := q2.count hc hG
    exact Or.inr ⟨⟨_, total h2 hf' ⟨bs, b1, b2, rfl⟩, b3⟩, f', pw', q1, q2, q3⟩

theorem run_pool (hc : Sma.Legal c) (hG : G.solo) (hfit : 8 * nodeWords L + 8 < 2 ^ 31) (hw : StrictWeak lt) (ops : List (Map.Op K V))
    {w : Map.World K V} {sw sw' : Map.SWorld K V} {g} {pw : World} {f : Nat → Nat} (h : Maps lt w sw g) (hf : Finite sw)
    (hR : WR c G L E f (live w) w pw) (hs : Map.specRun lt dflt ops sw = some sw') (hsafe : Map.SafeAll lt dflt ops sw) :
    (¬ KeysFit lt dflt (c.M / (8 * nodeWords L)) ops sw ∧ Faults (run (poolTree md c L E) lt dflt ops) pw .crash) ∨
    (KeysFit lt dflt (c.M / (8 * nodeWords L)) ops sw ∧
      ∃ pw' f' w' g', Returns (run (poolTree md c L E) lt dflt ops) pw (Map.specOuts lt dflt ops sw) pw' ∧
        Maps lt w' sw' g' ∧ WR c G L E f' (live w') w' pw' ∧ Finite sw' ∧
        ∀ k key n, AtKey lt g k key n → (∀ op ∈ ops, Map.Keeps lt k key op) → AtKey lt g' k key n ∧ f' n = f n) := by
  induction ops generalizing w sw g pw f with
  | nil => cases hs; exact Or.inr ⟨trivial, pw, f, w, g, rfl, h, hR, hf, fun _ _ _ a _ => ⟨a, rfl⟩⟩
  | cons op ops ih =>
    simp only [Map.specRun, Option.bind_eq_some_iff] at hs
    obtain ⟨sw1, hs1, hs⟩ := hs
    obtain ⟨w1, g1, _, h1, hf1, hK, h2⟩ := step_pool (md := md) hc hG hfit hw h hf hR op hs1 hsafe.1
    rcases h2 with ⟨⟨n, t1, t2⟩, h2⟩ | ⟨hfits, f', pw', h2, h3, h4⟩
    · refine Or.inl ⟨fun hfit => ?_, faults_bind h2⟩
      obtain ⟨⟨n', t1', t2'⟩, _⟩ := hfit _ hs1
      have := LPool.Total.det t1 t1'
      omega
    · rcases ih h1 hf1 h3 hs (hsafe.2 _ hs1) with ⟨g1, g2⟩ | ⟨g1, pw2, f2, w2, g', g2, g3, g4, g5, g6⟩
      · exact Or.inl ⟨fun hfit => g1 (hfit _ hs1).2, Faults.bind_after h2 (faults_bind g2)⟩
      · refine Or.inr ⟨fun sw' e => ?_, pw2, f2, w2, g', ?_, g3, g4, g5, fun k key n a hk => ?_⟩
        · rw [hs1] at e; cases e
          exact ⟨hfits, g1⟩
        · show (do let out ← step (poolTree md c L E) lt dflt op; let outs ← run (poolTree md c L E) lt dflt ops; pure (out :: outs) :
            Prog World (List (Option V))) pw = _
          rw [bind_returns h2, bind_returns g2]
          show some (Except.ok ((_ :: _), pw2)) = some (Except.ok (Map.specOuts lt dflt (op :: ops) sw, pw2))
          rw [Map.specOuts, hs1]
          rfl
        · have a1 := hK k key n a (hk op (by simp))
          obtain ⟨a2, e⟩ := g6 k key n a1 fun o ho => hk o (by simp [ho])
          exact ⟨a2, by rw [e, h4 n (AtKey.live h a) (AtKey.live h1 a1)]⟩

theorem shows_pool (hc : Sma.Legal c) (hw : StrictWeak lt) {w : Map.World K V} {sw : Map.SWorld K V} {g} {pw : World}
    (h : Maps lt w sw g) (hR : WR c G L E f (live w) w pw) : Shows md c L E lt dflt pw sw := by
  have hi := hR.inj hc
  intro k
  obtain ⟨h1, h2⟩ := h.shows (dflt := dflt) hw k
  refine ⟨fun hk => by rw [hR.obj k, h1 hk]; rfl, fun l hl => ?_⟩
  obtain ⟨g1, g2, g3, g4, g5⟩ := h2 l hl
  refine ⟨g1, on_observe hR k getSize_sim g2, on_observe hR k (empty_sim hc hi) g3,
    fun hne => on_observe hR k (A.elements_sim hc hi) (g4 hne), fun x => on_observe hR k ?_ (g5 x)⟩
  exact Sim.bind (find_sim hc hi x) fun p p' hp => A.readIt_sim hc hi hp

end Verif.TPool.M
