import Verif.SharedPoolSound
import Verif.SharedPoolDeques
import Verif.ListPoolWorld
import Verif.MapPoolRun
import Verif.TreePoolBstRun
import Verif.Props.AVLTree
import Verif.Props.BST

/-! Helper lemmas: lists, trees and maps keep to their own nodes in the pool. -/

namespace Verif.Shared

open Prog Pool

variable {c : Sma.Cfg}

theorem full_node {s : Sma.St} {N : Nat} (h : NoRoom c s (Slots.size N)) : Full c s (8 * N) := by
  obtain ⟨t, h1, h2⟩ := h
  refine ⟨t, h1, fun b hb => ?_⟩
  rw [Slots.up8_size] at h2
  exact Nat.lt_of_not_le fun hle => h2 ⟨b, hb, hle⟩

/-- The nodes in another environment. -/
theorem held_reframe {N : Nat} {F F' : Rest} {f : Nat → Nat} {bs : List Nat} {s s' : Sma.St}
    {own : List (Nat × Int)} (h : Slots.Held c N ⟨F, False⟩ f bs s)
    (hp : own.Perm (bs.map fun n => (f n, Slots.size N))) (h1 : Owned c F' own s') (h2 : Kept F' s') :
    Slots.Held c N ⟨F', False⟩ f bs s' :=
  ⟨h.nodup, h1.perm hp, h2, False.elim⟩

/-- A class of objects made of nodes of one size, whose nodes and memory are related to those of a model
with identifiers. -/
def Sound.ofNodes {k : Class} (M : Meaning k) (N : Nat) (W : Type) (node : W → Nat → Prop)
    (Rel : Slots.Env → (Nat → Nat) → W → k.World → Prop) (Good : W → M.Spec → Prop)
    (hpool : ∀ s o, k.pool (k.pack s o) = s) (hpack : ∀ w, k.pack (k.pool w) (k.objs w) = w)
    (hheld : ∀ {G f m w}, Rel G f m w → ∃ bs, Slots.Held c N G f bs (k.pool w) ∧ ∀ n, n ∈ bs ↔ node m n)
    (hre : ∀ {F F' : Rest} {f m s s' o bs}, Rel ⟨F, False⟩ f m (k.pack s o) →
      Slots.Held c N ⟨F', False⟩ f bs s' → (∀ n, n ∈ bs ↔ node m n) →
      (∀ n, node m n → ∀ j, j < N → s'.mem (f n + 8 * j) = s.mem (f n + 8 * j)) →
      Rel ⟨F', False⟩ f m (k.pack s' o))
    (hstart : ∀ {F : Rest} {s}, Slots.Held c N ⟨F, False⟩ id [] s →
      ∃ m, Rel ⟨F, False⟩ id m (k.pack s k.none) ∧ Good m M.start ∧ ∀ n, ¬ node m n)
    (hstep : ∀ {F : Rest} {f m w sp op}, Rel ⟨F, False⟩ f m w → Good m sp → M.Ok op sp →
      (M.Stops c w op ∧ Faults (k.step .port c op) w .crash) ∨
      ∃ f' m' r w' sp', Returns (k.step .port c op) w r w' ∧ M.Returned op sp r ∧ M.next op sp sp' ∧ Rel ⟨F, False⟩ f' m' w' ∧ Good m' sp')
    (hshows : ∀ {G f m w sp}, Rel G f m w → Good m sp → M.Shows c w sp)
    (huses : ∀ {G f m w sp}, Rel G f m w → Good m sp → ∃ ns : List Nat, ns.Nodup ∧ (∀ n, n ∈ ns ↔ node m n) ∧
      M.Uses w (ns.map fun n => (f n, 8 * N))) :
    Sound c k M where
  Inv := fun F s o sp own => ∃ f m, Rel ⟨F, False⟩ f m (k.pack s o) ∧ Good m sp ∧
    ∃ bs : List Nat, bs.Nodup ∧ (∀ n, n ∈ bs ↔ node m n) ∧ own.Perm (bs.map fun n => (f n, Slots.size N))
  owned := by
    rintro F s o sp own ⟨f, m, hR, _, bs, h1, h2, h3⟩
    obtain ⟨bs', h4, h5⟩ := hheld hR
    rw [hpool] at h4
    have hp : bs'.Perm bs := (List.perm_ext_iff_of_nodup h4.nodup h1).2 fun n => (h5 n).trans (h2 n).symm
    exact ⟨h4.owned.perm ((hp.map _).trans h3.symm), h4.kept⟩
  init := by
    intro F s h1 h2
    obtain ⟨m, g1, g2, g3⟩ := hstart (F := F) (s := s) ⟨List.nodup_nil, h1, h2, False.elim⟩
    exact ⟨id, m, g1, g2, [], List.nodup_nil, fun n => ⟨nofun, fun h => absurd h (g3 n)⟩, .refl _⟩
  step := by
    rintro F s o sp own op ⟨f, m, hR, hg, _⟩ hok
    rcases hstep hR hg hok with h | ⟨f', m', r, w', sp', h1, hr, h2, h3, h4⟩
    · exact Or.inl h
    · obtain ⟨bs, g1, g2⟩ := hheld h3
      refine Or.inr ⟨r, w', sp', _, h1, hr, h2, f', m', ?_, h4, bs, g1.nodup, g2, .refl _⟩
      rw [hpack]
      exact h3
  reframe := by
    rintro F F' s s' o sp own ⟨f, m, hR, hg, bs, h1, h2, h3⟩ k1 k2 k3
    obtain ⟨bs', h4, h5⟩ := hheld hR
    have hp : bs'.Perm bs := (List.perm_ext_iff_of_nodup h4.nodup h1).2 fun n => (h5 n).trans (h2 n).symm
    refine ⟨f, m, hre hR (held_reframe h4 (h3.trans (hp.map _).symm) k1 k2) h5 ?_, hg, bs, h1, h2, h3⟩
    intro n hn j hj
    have hm : (f n, Slots.size N) ∈ own := h3.mem_iff.2 (List.mem_map.2 ⟨n, (h2 n).2 hn, rfl⟩)
    exact k3 _ hm _ (by simp only; omega) (by rw [Slots.up8_size]; simp only; omega)
  shows := by
    rintro F s o sp own ⟨f, m, hR, hg, _⟩
    exact hshows hR hg
  uses := by
    rintro F s o sp own ⟨f, m, hR, hg, bs, h1, h2, h3⟩
    obtain ⟨ns, g1, g2, g3⟩ := huses hR hg
    refine ⟨_, g3, ?_⟩
    have hp : ns.Perm bs := (List.perm_ext_iff_of_nodup g1 h1).2 fun n => (g2 n).trans (h2 n).symm
    refine ((hp.map _).trans (.of_eq ?_)).trans (h3.map _).symm
    rw [List.map_map]
    refine List.map_congr_left fun n _ => ?_
    simp [Slots.up8_size]

/-! ## Lists -/

section
open LPool LL
variable {α : Type} {kd : LL.Kind} {K : Pool.Layout α} {E : LPool.PtrRep} {G : Slots.Env} {f : Nat → Nat}
  {m : LL.Mem α} {w : LPool.PMem α}

/-- The links in the pool lead through the nodes. -/
theorem listFrom (hR : LPool.R c G kd K E f m w) {k : Nat} {ns : List (Nat × α)} {p : LL.Ptr}
    (h : ∀ n ∈ ns, ∃ h, m.cell (.node n.1) = some (some h))
    (hc : Chain (nx m) (p :: ptrs ns ++ [.head k])) :
    ∀ q, nx m p = some q → ListFrom E w.pool.mem k (LPool.F f q) (ns.map fun e => f e.1) := by
  induction ns generalizing p with
  | nil =>
    intro q hq
    have : nx m p = some (.head k) := hc.1
    rw [hq] at this
    cases this
    rfl
  | cons e ns ih =>
    intro q hq
    have h1 : nx m p = some (.node e.1) := hc.1
    rw [hq] at h1
    cases h1
    obtain ⟨x, hx⟩ := h e List.mem_cons_self
    have hnx : nx m (.node e.1) = some x.next := by simp [nx, hx]
    refine ⟨rfl, LPool.F f x.next, ?_, ih (fun n hn => h n (List.mem_cons_of_mem _ hn)) hc.2 _ hnx⟩
    rw [(hR.cells _ _ hx).1]
    exact E.dec_enc _

theorem nodesOf_flatMap (f : Nat → Nat) (N : Nat) (g : Nat → Option (List (Nat × α))) (ks : List Nat) :
    (nodesOf g ks).map (fun n => (f n, 8 * N)) =
      ks.flatMap fun k => (((g k).getD []).map fun e => f e.1).map fun a => (a, 8 * N) := by
  induction ks with
  | nil => rfl
  | cons k ks ih =>
    rw [nodesOf, List.map_append, ih, List.flatMap_cons, List.map_map, List.map_map]
    rfl

theorem list_uses (hR : LPool.R c G kd K E f m w) {g : Nat → Option (List (Nat × α))} (hW : WInv kd m g)
    (hfin : ∃ ks : List Nat, ks.Nodup ∧ ∀ k, k ∈ ks ↔ g k ≠ none) :
    ∃ ns : List Nat, ns.Nodup ∧ (∀ n, n ∈ ns ↔ m.cell (.node n) ≠ none) ∧
      ListNodes (8 * LPool.nodeWords kd K) E w (ns.map fun n => (f n, 8 * LPool.nodeWords kd K)) := by
  obtain ⟨ks, h1, h2⟩ := hfin
  have hhead : ∀ k ns, g k = some ns → ∃ h, m.cell (.head k) = some (some h) := by
    intro k ns hk
    exact (hW.alive k ns hk).head.2
  refine ⟨nodesOf g ks, nodup_nodesOf hW h1, fun n => ?_, ks, fun k => ((g k).getD []).map fun e => f e.1, h1, fun k => ?_,
    fun k hk => ?_, nodesOf_flatMap f _ g ks⟩
  · rw [mem_nodesOf]
    constructor
    · rintro ⟨k, _, ns, e1, e2⟩
      obtain ⟨_, h, e⟩ := (hW.alive k ns e1).live (List.mem_cons_of_mem _ e2)
      rw [e]; simp
    · intro hn
      obtain ⟨k, ns, e1, e2⟩ := hW.owned n hn
      exact ⟨k, (h2 k).2 (by rw [e1]; simp), ns, e1, e2⟩
  · rw [h2]
    rcases e : g k with _ | ns
    · simp [hR.dead k (hW.dead k e)]
    · obtain ⟨h, hh⟩ := hhead k ns e
      simp [hR.heads k h hh]
  · rcases e : g k with _ | ns
    · exact absurd e ((h2 k).1 hk)
    · obtain ⟨h, hh⟩ := hhead k ns e
      refine ⟨_, hR.heads k h hh, ?_⟩
      have hn0 : nx m (.head k) = some h.next := by simp [nx, hh]
      simp only [e, Option.getD_some]
      refine listFrom hR (p := .head k) (ns := ns) (fun n hn => ?_) (hW.alive k ns e).fwd _ hn0
      exact ((hW.alive k ns e).live (List.mem_cons_of_mem _ (List.mem_map.2 ⟨n, hn, rfl⟩))).2

theorem list_reframe {F F' : Rest} {s s' : Sma.St} {o : Lists α} {bs : List Nat}
    (hR : LPool.R c ⟨F, False⟩ kd K E f m ⟨s, o.head, o.sz, o.tail⟩)
    (hh : Slots.Held c (LPool.nodeWords kd K) ⟨F', False⟩ f bs s') (hb : ∀ n, n ∈ bs ↔ m.cell (.node n) ≠ none)
    (hm : ∀ n, m.cell (.node n) ≠ none → ∀ j, j < LPool.nodeWords kd K → s'.mem (f n + 8 * j) = s.mem (f n + 8 * j)) :
    LPool.R c ⟨F', False⟩ kd K E f m ⟨s', o.head, o.sz, o.tail⟩ :=
  ⟨hR.fresh, hR.old, hR.oldTail, hR.heads, hR.dead, hR.sz, hR.tail, ⟨bs, hh, hb⟩, hR.data, fun n h hn =>
    (hR.cells n h hn).congr fun j hj => hm n (by rw [hn]; simp) j hj⟩

theorem list_start {F : Rest} {s : Sma.St} (hh : Slots.Held c (LPool.nodeWords kd K) ⟨F, False⟩ id [] s) :
    LPool.R c ⟨F, False⟩ kd K E id (LL.Mem.init : LL.Mem α) (LPool.PMem.init s) := by
  refine ⟨fun _ _ => rfl, ?_, ?_, ?_, fun _ _ => rfl, rfl, ?_, ⟨[], hh, ?_⟩, ?_, ?_⟩
  · intro p x hx; cases hx
  · intro k; trivial
  · intro k x hx; cases hx
  · intro k; rfl
  · intro n; simp [LL.Mem.init]
  · intro n x hx; cases hx
  · intro n x hx; cases hx

theorem some_of {β : Type} {x : Option β} (h : x ≠ none) : ∃ a, x = some a := by
  cases x with
  | none => exact absurd rfl h
  | some a => exact ⟨a, rfl⟩

def dlistSound (hc : Sma.Legal c) (K : Pool.Layout α) (E : LPool.PtrRep) (dflt : Option α)
    (hK : 8 * LPool.nodeWords .doubly K + 8 < 2 ^ 31) : Sound c (dlists K E dflt) (dlistMeaning K E dflt) :=
  Sound.ofNodes (dlistMeaning K E dflt) (LPool.nodeWords .doubly K) (LL.Mem α) (fun m n => m.cell (.node n) ≠ none)
    (fun G f m w => LPool.R c G .doubly K E f m w) (fun m sp => DL.Holds m sp ∧ LPool.Finite sp)
    (fun _ _ => rfl) (fun _ => rfl) (fun h => h.held)
    (fun h1 h2 h3 h4 => list_reframe h1 h2 h3 h4)
    (fun h => ⟨LL.Mem.init, list_start h, ⟨DL.Holds.init, LPool.finite_empty⟩, fun n h => h rfl⟩)
    (by
      rintro F f m w sp op hR ⟨hH, hf⟩ ⟨h1, h2⟩
      obtain ⟨sp', hs⟩ := some_of h1
      rcases LPool.dStep_any (md := .port) hc hK dflt hH hR hs h2 with ⟨⟨_, hst⟩, hfl⟩ | ⟨w', f', m', r1, r2, r3⟩
      · refine Or.inl ⟨?_, hfl⟩
        have hst := hst rfl
        show dlistStops _ c w op
        cases op <;> simp only [LPool.dStop] at hst <;> simp only [dlistStops] <;> exact full_node hst
      · exact Or.inr ⟨f', m', (), w', sp', r1, trivial, hs, r3, r2, hf.dstep hs⟩)
    (fun hR hg => LPool.dShows_pool hc hg.1 hR)
    (by
      rintro G f m w sp hR ⟨⟨g, hW, rfl⟩, ks, h1, h2⟩
      exact list_uses hR hW ⟨ks, h1, fun k => (h2 k).trans (by simp [DL.abs])⟩)

/-- A queue over a list is the list with fewer operations. -/
def queueSound (hc : Sma.Legal c) (K : Pool.Layout α) (E : LPool.PtrRep) (dflt : Option α)
    (hK : 8 * LPool.nodeWords .doubly K + 8 < 2 ^ 31) : Sound c (queues K E dflt) (queueMeaning K E dflt) where
  Inv := (dlistSound hc K E dflt hK).Inv
  owned := (dlistSound hc K E dflt hK).owned
  init := (dlistSound hc K E dflt hK).init
  step := by
    rintro F s o sp own op h ⟨h1, h2⟩
    have e : (queues K E dflt).step .port c op = (dlists K E dflt).step .port c op.dl := by cases op <;> rfl
    have h1' : DL.specStep op.dl sp ≠ none := fun e => h1 ((Queue.dl_specStep op sp).trans e)
    rcases (dlistSound hc K E dflt hK).step (op := op.dl) h ⟨h1', by cases op <;> first | trivial | exact h2⟩ with
      ⟨g1, g2⟩ | ⟨r, w, sp', own', g1, _, g2, g3⟩
    · refine Or.inl ⟨?_, by rw [e]; exact g2⟩
      cases op <;> exact g1
    · exact Or.inr ⟨r, w, sp', own', by rw [e]; exact g1, trivial, (Queue.dl_specStep op sp).trans g2, g3⟩
  reframe := (dlistSound hc K E dflt hK).reframe
  shows := by
    intro F s o sp own h
    have h2 := (dlistSound hc K E dflt hK).shows h
    refine ⟨fun k => (h2 k).1, fun k q hk => ?_, fun k q hk => ((h2 k).2 q hk).1⟩
    obtain ⟨_, _, e3, e4, e5, e6⟩ := (h2 k).2 q hk
    exact ⟨e3, e4, e5, e6⟩
  uses := (dlistSound hc K E dflt hK).uses

theorem listStack_pop {md : Sma.Mode} {K : Pool.Layout α} {E : LPool.PtrRep} {dflt : Option α} {k : Nat} {m : LPool.PMem α}
    {x : α} (hb : Returns (LPool.D.back (LPool.poolNodes md c .doubly K E) k) m x m) :
    StackOn.step (StackOn.poolList md c K E dflt) (.pop k) m =
      LPool.D.step (LPool.poolNodes md c .doubly K E) dflt (.popBack k) m := by
  show ((LPool.D.back (LPool.poolNodes md c .doubly K E) k >>= fun _ =>
    LPool.D.popBack (LPool.poolNodes md c .doubly K E) k : Prog _ Unit)) m = _
  rw [bind_returns hb]
  rfl

theorem listStack_step {md : Sma.Mode} {K : Pool.Layout α} {E : LPool.PtrRep} {dflt : Option α} {op : Stack.Op α}
    {m : LPool.PMem α} {dw : DL.SWorld α} {sp sp' : Stack.Spec α} (habs : StackOn.AbsL dw sp)
    (hs : Stack.specStep op sp = some sp') (h : LPool.D.Shows md c K E m dw) :
    StackOn.step (StackOn.poolList md c K E dflt) op m =
      LPool.D.step (LPool.poolNodes md c .doubly K E) dflt (StackOn.dlOp op) m := by
  cases op with
  | pop k =>
    simp only [Stack.specStep] at hs
    split at hs
    · rename_i x q hk
      rw [habs k] at hk
      obtain ⟨l, hl, hr⟩ := Option.map_eq_some_iff.1 hk
      exact listStack_pop (((h k).2 l hl).2.2.2.2.2 x (by rw [← List.head?_reverse, hr]; rfl))
    · cases hs
  | _ => rfl

/-- A stack over a list is the list used at its end, where `pop` reads the last element first. -/
def listStackSound (hc : Sma.Legal c) (K : Pool.Layout α) (E : LPool.PtrRep) (dflt : Option α)
    (hK : 8 * LPool.nodeWords .doubly K + 8 < 2 ^ 31) : Sound c (listStacks K E dflt) (listStackMeaning K E dflt) where
  Inv := fun F s o sp own => ∃ dw, (dlistSound hc K E dflt hK).Inv F s o dw own ∧ StackOn.AbsL dw sp
  owned := fun ⟨_, h, _⟩ => (dlistSound hc K E dflt hK).owned h
  init := fun h1 h2 => ⟨_, (dlistSound hc K E dflt hK).init h1 h2, fun _ => rfl⟩
  step := by
    rintro F s o sp own op ⟨dw, h, habs⟩ ⟨h1, h2⟩
    obtain ⟨sp', hs⟩ := some_of h1
    obtain ⟨dw', hd, habs'⟩ := StackOn.dl_specStep habs hs
    have e := listStack_step (md := .port) (c := c) (K := K) (E := E) (dflt := dflt) (m := (dlists K E dflt).pack s o) habs hs
      ((dlistSound hc K E dflt hK).shows h)
    have ha : DL.Avoids (StackOn.dlOp op) dw := by
      cases op with
      | move d s =>
        refine h2.imp id fun hn he => hn ?_
        rw [habs s, he]; rfl
      | _ => trivial
    rcases (dlistSound hc K E dflt hK).step (op := StackOn.dlOp op) h ⟨by rw [hd]; simp, ha⟩ with
      ⟨g1, g2⟩ | ⟨r, w, sp1, own', g1, _, g2, g3⟩
    · refine Or.inl ⟨?_, e.trans g2⟩
      cases op <;> exact g1
    · have : sp1 = dw' := Option.some.inj (g2.symm.trans hd)
      subst this
      exact Or.inr ⟨r, w, sp', own', e.trans g1, trivial, hs, _, g3, habs'⟩
  reframe := fun ⟨dw, h, ha⟩ h2 h3 h4 => ⟨dw, (dlistSound hc K E dflt hK).reframe h h2 h3 h4, ha⟩
  shows := by
    rintro F s o sp own ⟨dw, h, habs⟩
    have h2 := (dlistSound hc K E dflt hK).shows h
    refine ⟨fun k hk => (h2 k).1 ?_, fun k q hk => ?_, fun k q hk => ?_⟩
    · rw [habs k] at hk
      exact Option.map_eq_none_iff.1 hk
    · rw [habs k] at hk
      obtain ⟨l, hl, rfl⟩ := Option.map_eq_some_iff.1 hk
      obtain ⟨_, _, e3, e4, _, e6⟩ := (h2 k).2 l hl
      rw [List.length_reverse]
      exact ⟨e3, e4, fun x hx => e6 x (by rwa [List.head?_reverse] at hx)⟩
    · rw [habs k] at hk
      obtain ⟨l, hl, rfl⟩ := Option.map_eq_some_iff.1 hk
      rw [List.reverse_reverse]
      exact ((h2 k).2 l hl).1
  uses := fun ⟨_, h, _⟩ => (dlistSound hc K E dflt hK).uses h

def slistSound (hc : Sma.Legal c) (K : Pool.Layout α) (E : LPool.PtrRep) (dflt : Option α)
    (hK : 8 * LPool.nodeWords .singly K + 8 < 2 ^ 31) : Sound c (slists K E dflt) (slistMeaning K E dflt) :=
  Sound.ofNodes (slistMeaning K E dflt) (LPool.nodeWords .singly K) (LL.Mem α) (fun m n => m.cell (.node n) ≠ none)
    (fun G f m w => LPool.R c G .singly K E f m w) (fun m sp => SL.Holds m sp ∧ LPool.Finite sp)
    (fun _ _ => rfl) (fun _ => rfl) (fun h => h.held)
    (fun h1 h2 h3 h4 => list_reframe h1 h2 h3 h4)
    (fun h => ⟨LL.Mem.init, list_start h, ⟨SL.Holds.init, LPool.finite_empty⟩, fun n h => h rfl⟩)
    (by
      rintro F f m w sp op hR ⟨hH, hf⟩ ⟨h1, h2⟩
      obtain ⟨sp', hs⟩ := some_of h1
      rcases LPool.sStep_any (md := .port) hc hK dflt hH hR hs h2 with ⟨⟨_, hst⟩, hfl⟩ | ⟨w', f', m', r1, r2, r3⟩
      · refine Or.inl ⟨?_, hfl⟩
        have hst := hst rfl
        show slistStops _ c w op
        cases op <;> simp only [LPool.sStop] at hst <;> simp only [slistStops] <;> exact full_node hst
      · exact Or.inr ⟨f', m', (), w', sp', r1, trivial, hs, r3, r2, hf.sstep hs⟩)
    (fun hR hg => LPool.sShows_pool hc hg.1 hR)
    (by
      rintro G f m w sp hR ⟨⟨g, hW, _, rfl⟩, ks, h1, h2⟩
      exact list_uses hR hW ⟨ks, h1, fun k => (h2 k).trans (by simp [DL.abs])⟩)

end

/-! ## Trees -/

section
open TPool Tree
variable {δ : Type} {K : Pool.Layout δ} {E : TPool.PtrRep} {G : Slots.Env} {f : Nat → Nat} {w : Tree.World δ} {pw : TPool.World}

theorem treeFrom {S : Nat → Prop} (hR : TPool.WR c G K E f S w pw) {pa : Ptr} {t : T δ} (h : Rep w.mem pa t) :
    TreeFrom E pw.pool.mem (t.root.map f) (t.ptrs.map f) := by
  induction t generalizing pa with
  | nil => exact .nil
  | node l p d r ihl ihr =>
    obtain ⟨h1, h2, h3, h4, h5, h6⟩ := h
    have hc := hR.mem.cells p d h1
    have hl : w.mem.lft p = l.root := h3
    have hr : w.mem.rgt p = r.root := h4
    show TreeFrom E _ (some (f p)) ((l.ptrs ++ p :: r.ptrs).map f)
    rw [List.map_append, List.map_cons]
    refine .node (l := l.root.map f) (r := r.root.map f) ?_ ?_ (ihl h5) (ihr h6)
    · rw [hc.lft, ← hl]; exact E.dec_enc _
    · rw [hc.rgt, ← hr]; exact E.dec_enc _

/-- The nodes of the trees named. -/
def treePtrs (g : Nat → Option (T δ)) (ks : List Nat) : List Nat := ks.flatMap fun k => ((g k).map T.ptrs).getD []

theorem tree_uses {P : T δ → Prop} {g : Nat → Option (T δ)} {cc : Nat → Nat} {S : Nat → Prop}
    (hR : TPool.WR c G K E f S w pw) (hH : HoldsSized P w g cc)
    (hfin : ∃ ks : List Nat, ks.Nodup ∧ ∀ k, k ∈ ks ↔ g k ≠ none) :
    ∃ ns : List Nat, ns.Nodup ∧ (∀ n, n ∈ ns ↔ w.mem.dat n ≠ none) ∧
      TreeNodes (8 * TPool.nodeWords K) E pw (ns.map fun n => (f n, 8 * TPool.nodeWords K)) := by
  obtain ⟨ks, h1, h2⟩ := hfin
  have hb := hH.base
  refine ⟨treePtrs g ks, ?_, fun n => ?_, ks, fun k => (((g k).map T.ptrs).getD []).map f, h1, fun k => ?_, fun k hk => ?_, ?_⟩
  · clear h2
    induction ks with
    | nil => exact List.nodup_nil
    | cons k ks ih =>
      rw [List.nodup_cons] at h1
      refine List.nodup_append.2 ⟨?_, ih h1.2, ?_⟩
      · rcases e : g k with _ | t
        · simp [e]
        · simp only [e, Option.map_some, Option.getD_some]
          exact hb.nodup k t e
      · intro a ha b hb' hab
        subst hab
        rcases e : g k with _ | t
        · simp [e] at ha
        · simp only [e, Option.map_some, Option.getD_some] at ha
          obtain ⟨j, hj, hm⟩ := List.mem_flatMap.1 hb'
          rcases e' : g j with _ | u
          · simp [e'] at hm
          · simp only [e', Option.map_some, Option.getD_some] at hm
            exact hb.disj k j t u e e' (by rintro rfl; exact h1.1 hj) a ha hm
  · constructor
    · intro hn
      obtain ⟨k, hk, hm⟩ := List.mem_flatMap.1 hn
      rcases e : g k with _ | t
      · simp [e] at hm
      · simp only [e, Option.map_some, Option.getD_some] at hm
        exact (hb.allocated).2 ⟨k, t, e, hm⟩
    · intro hn
      obtain ⟨k, t, e, hm⟩ := hb.own n hn
      exact List.mem_flatMap.2 ⟨k, (h2 k).2 (by rw [e]; simp), by simpa [e] using hm⟩
  · rw [h2, hR.obj k, hH.obj k]
    cases g k <;> simp
  · rcases e : g k with _ | t
    · exact absurd e ((h2 k).1 hk)
    · refine ⟨(t.root.map f, cc k), by rw [hR.obj k, hH.obj k, e]; rfl, ?_⟩
      simp only [e, Option.map_some, Option.getD_some]
      exact treeFrom hR (hb.rep k t e)
  · unfold treePtrs
    rw [List.map_flatMap]
    simp only [List.map_map]
    rfl

theorem tree_reframe {F F' : Rest} {s s' : Sma.St} {o : Nat → Option (Ptr × Nat)} {bs : List Nat}
    (hR : TPool.WR c ⟨F, False⟩ K E f (live w) w ⟨s, o⟩)
    (hh : Slots.Held c (TPool.nodeWords K) ⟨F', False⟩ f bs s') (hb : ∀ n, n ∈ bs ↔ w.mem.dat n ≠ none)
    (hm : ∀ n, w.mem.dat n ≠ none → ∀ j, j < TPool.nodeWords K → s'.mem (f n + 8 * j) = s.mem (f n + 8 * j)) :
    TPool.WR c ⟨F', False⟩ K E f (live w) w ⟨s', o⟩ := by
  obtain ⟨⟨h1, h2, h3, h4, h5, h6, h7⟩, h8, h9⟩ := hR
  refine ⟨⟨h1, h2, h3, h4, h5, ⟨bs, hh, hb⟩, fun n d hn => ?_⟩, h8, h9⟩
  obtain ⟨g1, g2, g3, g4⟩ := h7 n d hn
  have hk := hm n (by rw [show w.mem.dat n = _ from hn]; simp)
  have e : TPool.nodeWords K = 3 + K.words := rfl
  refine ⟨(hk 0 (by omega)).trans g1, (hk 1 (by omega)).trans g2, (hk 2 (by omega)).trans g3, fun j hj => ?_⟩
  have := hk (3 + j) (by omega)
  rw [show f n + 8 * (3 + j) = f n + 24 + 8 * j by omega] at this
  exact this.trans (g4 j hj)

theorem tree_start {F : Rest} {s : Sma.St} (hh : Slots.Held c (TPool.nodeWords K) ⟨F, False⟩ id [] s) :
    TPool.WR c ⟨F, False⟩ K E id (live (Tree.World.init : Tree.World δ)) Tree.World.init ⟨s, fun _ => none⟩ := by
  refine ⟨⟨fun _ _ => rfl, fun n hn => absurd rfl hn, ?_, PR.null, rfl, ⟨[], hh, ?_⟩, ?_⟩, fun _ => rfl, ?_⟩
  · intro n d hn; cases hn
  · intro n; simp [Tree.World.init, Tree.World.load]
  · intro n d hn; cases hn
  · intro k o hk; cases hk

theorem Holds.sized {P : T δ → Prop} {w : Tree.World δ} {g : Nat → Option (T δ)} (h : Tree.Holds P w g) :
    HoldsSized P w g (fun k => ((g k).map T.count).getD 0) := by
  have e : ∀ k, w.obj k = (g k).map fun t => (t.root, t.count) := by
    intro k
    rcases hk : g k with _ | t
    · exact h.dead k hk
    · exact h.obj k t hk
  refine ⟨?_, fun k => ?_⟩
  · have : (⟨w.mem, fun k => (g k).map fun t => (t.root, t.count)⟩ : Tree.World δ) = w := by
      cases w
      congr
      exact (funext e).symm
    rw [this]; exact h
  · rw [e]
    cases g k <;> rfl

end

section
open TPool
variable {α : Type}

def bstSound (hc : Sma.Legal c) (K : Pool.Layout α) (E : TPool.PtrRep) (lt : α → α → Bool)
    (hK : 8 * TPool.nodeWords K + 8 < 2 ^ 31) (hw : AVL.StrictWeak lt) : Sound c (bsts K E lt) (bstMeaning K E lt) :=
  Sound.ofNodes (bstMeaning K E lt) (TPool.nodeWords K) (Tree.World α) (fun m n => m.mem.dat n ≠ none)
    (fun G f m w => TPool.WR c G K E f (live m) m w) (fun m sp => BST.Reach lt m sp ∧ LPool.Finite sp.sets)
    (fun _ _ => rfl) (fun _ => rfl) (fun h => h.mem.held)
    (fun h1 h2 h3 h4 => tree_reframe h1 h2 h3 h4)
    (fun h => ⟨Tree.World.init, tree_start h, ⟨.init, LPool.finite_empty⟩, fun n h => h rfl⟩)
    (by
      rintro F f m w sp op hR ⟨hH, hf⟩ ⟨h1, h2⟩
      obtain ⟨sp', hs⟩ := some_of h1
      obtain ⟨m', r1, r2, _⟩ := BST.bst_runs_partial hw hH op hs (h2.safe hw hH)
      have hT : BST.HoldsTrees m := (hH.ran hw).holds hw.irrefl
      rcases TPool.B.step_pool (md := .port) hc hK hw.irrefl hT hR op (TPool.B.alive_of_spec (hH.holds hw) hs) r1 with
        ⟨⟨_, hst⟩, hfl⟩ | ⟨f', w', q1, q2⟩
      · refine Or.inl ⟨?_, hfl⟩
        have hst := hst rfl
        show bstStops _ c w op
        cases op <;> simp only [TPool.B.mayStop] at hst <;> simp only [bstStops] <;> exact full_node hst
      · exact Or.inr ⟨f', m', _, w', sp', q1, rfl, hs, q2, r2, TPool.B.finite_step hf hs⟩)
    (fun hR hg => TPool.B.Shows.of_same (TPool.B.same_pool hc hR) ((hg.1.holds hw).shows hw))
    (by
      rintro G f m w sp hR ⟨hH, ks, h1, h2⟩
      obtain ⟨g, cc, hh, hl⟩ := hH.holds hw
      refine tree_uses hR hh ⟨ks, h1, fun k => (h2 k).trans ?_⟩
      rcases hl k with ⟨e1, e2⟩ | ⟨t, _, e1, e2, _⟩ <;> simp [BST.SWorld.sets, e1, e2])

def avlSound (hc : Sma.Legal c) (K : Pool.Layout (AVL.D α)) (E : TPool.PtrRep) (lt : α → α → Bool)
    (hK : 8 * TPool.nodeWords K + 8 < 2 ^ 31) (hw : AVL.StrictWeak lt) : Sound c (avls K E lt) (avlMeaning K E lt) :=
  Sound.ofNodes (avlMeaning K E lt) (TPool.nodeWords K) (Tree.World (AVL.D α)) (fun m n => m.mem.dat n ≠ none)
    (fun G f m w => TPool.WR c G K E f (live m) m w) (fun m sp => AVL.Reach lt m sp ∧ LPool.Finite sp)
    (fun _ _ => rfl) (fun _ => rfl) (fun h => h.mem.held)
    (fun h1 h2 h3 h4 => tree_reframe h1 h2 h3 h4)
    (fun h => ⟨Tree.World.init, tree_start h, ⟨.init, LPool.finite_empty⟩, fun n h => h rfl⟩)
    (by
      rintro F f m w sp op hR ⟨hH, hf⟩ ⟨h1, h2⟩
      obtain ⟨sp', hs⟩ := some_of h1
      have hsafe := h2.safe hw hH hs
      obtain ⟨m', r1, r2⟩ := AVL.step_ok hw (hH.holds hw) hs hsafe
      obtain ⟨_, _, hp⟩ := TPool.A.step_any (md := .port) hc hK hw (hH.holds hw) hR op hs hsafe r1
      rcases hp with ⟨⟨_, hst⟩, hfl⟩ | ⟨f', w', q1, q2⟩
      · refine Or.inl ⟨?_, hfl⟩
        have hst := hst rfl
        show avlStops _ c w op
        cases op <;> simp only [TPool.A.mayStop] at hst
        exact full_node hst
      · exact Or.inr ⟨f', m', _, w', sp', q1, rfl, hs, q2, .step hH hs hsafe r1, TPool.A.finite_step hf hs⟩)
    (fun hR hg => TPool.A.shows_pool hc hw (hg.1.holds hw) hR)
    (by
      rintro G f m w sp hR ⟨hH, ks, h1, h2⟩
      obtain ⟨g, hh, hl⟩ := hH.holds hw
      refine tree_uses hR (Holds.sized hh) ⟨ks, h1, fun k => (h2 k).trans ?_⟩
      rw [hl k]
      cases g k <;> simp)

def mapSound {V : Type} (hc : Sma.Legal c) (K : Pool.Layout (AVL.D (α × V))) (E : TPool.PtrRep) (lt : α → α → Bool)
    (dflt : V) (hK : 8 * TPool.nodeWords K + 8 < 2 ^ 31) (hw : AVL.StrictWeak lt) :
    Sound c (maps K E lt dflt) (mapMeaning K E lt dflt) :=
  Sound.ofNodes (mapMeaning K E lt dflt) (TPool.nodeWords K) (Map.World α V) (fun m n => m.mem.dat n ≠ none)
    (fun G f m w => TPool.WR c G K E f (live m) m w) (fun m sp => (∃ g, Map.Maps lt m sp g) ∧ LPool.Finite sp)
    (fun _ _ => rfl) (fun _ => rfl) (fun h => h.mem.held)
    (fun h1 h2 h3 h4 => tree_reframe h1 h2 h3 h4)
    (fun h => ⟨Tree.World.init, tree_start h, ⟨⟨_, Tree.Holds.init, fun _ => rfl⟩, LPool.finite_empty⟩, fun n h => h rfl⟩)
    (by
      rintro F f m w sp op hR ⟨⟨g, hH⟩, hf⟩ ⟨h1, h2⟩
      obtain ⟨sp', hs⟩ := some_of h1
      obtain ⟨m', g', r1, r2, _, hp⟩ := TPool.M.step_any (md := .port) hc hK hw hH hR op hs h2
      rcases hp with ⟨⟨_, hst⟩, hfl⟩ | ⟨f', w', q1, q2, _⟩
      · refine Or.inl ⟨?_, hfl⟩
        have hst := hst rfl
        show mapStops _ c w op
        cases op <;> simp only [TPool.M.mayStop] at hst <;> simp only [mapStops] <;> exact full_node hst
      · exact Or.inr ⟨f', m', _, w', sp', q1, rfl, hs, q2, ⟨g', r2⟩, TPool.M.finite_step hf hs⟩)
    (fun hR hg => TPool.M.shows_pool hc hw hg.1.choose_spec hR)
    (by
      rintro G f m w sp hR ⟨⟨g, hH⟩, ks, h1, h2⟩
      refine tree_uses hR (Holds.sized hH.holds) ⟨ks, h1, fun k => (h2 k).trans ?_⟩
      rw [hH.val k]
      cases g k <;> simp)

end

/-- Every class of the library can share the pool. -/
theorem Container.sound {k : Class} {M : Meaning k} (h : Container k M) (hc : Sma.Legal c)
    (hM : 2 * c.M + 8 < 2 ^ 31) : Nonempty (Sound c k M) := by
  cases h with
  | vectors K hK => exact ⟨vectorSound hc hM K hK⟩
  | strings K nul hK ht => exact ⟨stringSound hc hM K nul hK ht⟩
  | heaps K R cmp hK ho => exact ⟨heapSound hc hM K R cmp hK ho⟩
  | stackClass K hK => exact ⟨stackSound hc hM K hK⟩
  | xstacks K R cmp gone hK ho => exact ⟨xstackSound hc hM K R cmp gone hK ho⟩
  | disjointSets => exact ⟨disjointSetSound hc hM⟩
  | dlists K E dflt hK => exact ⟨dlistSound hc K E dflt hK⟩
  | queues K E dflt hK => exact ⟨queueSound hc K E dflt hK⟩
  | listStacks K E dflt hK => exact ⟨listStackSound hc K E dflt hK⟩
  | slists K E dflt hK => exact ⟨slistSound hc K E dflt hK⟩
  | bsts K E lt hK hw => exact ⟨bstSound hc K E lt hK hw⟩
  | avls K E lt hK hw => exact ⟨avlSound hc K E lt hK hw⟩
  | maps K E lt dflt hK hw => exact ⟨mapSound hc K E lt dflt hK hw⟩
  | deques A size d hA hsz hfit hodd => exact ⟨dequeSound hc hM A size d hA hsz hfit hodd⟩

end Verif.Shared
