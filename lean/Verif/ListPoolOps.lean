import Verif.ListPoolSim

/-! Helper lemmas: the functions of the lists in the static pool (`Verif.ListPoolSim`), one by one. -/

namespace Verif.LPool

open Prog Verif.LL Lean.Order
open Verif.Pool (returns_bind returns_pure returns_check check_ok pokeN place)

variable {α : Type} {md : Sma.Mode} {c : Sma.Cfg} {G : Slots.Env} {kd : Kind} {K : Pool.Layout α} {D : PtrRep}

/-! ## Functions that release no node -/

/-- Nodes stay allocated. -/
def Keeps {β : Type} (p : Prog (Mem α) β) : Prop :=
  ∀ m, wlp p (fun _ m' => ∀ n, m.cell (.node n) ≠ none → m'.cell (.node n) ≠ none) m

section
variable {β γ : Type}

theorem Keeps.bind {p : Prog (Mem α) β} {g : β → Prog (Mem α) γ} (h1 : Keeps p) (h2 : ∀ a, Keeps (g a)) :
    Keeps (p >>= g) := by
  intro m
  refine wlp_bind (wlp_mono (h1 m) fun a m1 e1 => wlp_mono (h2 a m1) fun _ m2 e2 n hn => e2 n (e1 n hn))

theorem Keeps.pure (a : β) : Keeps (Pure.pure a : Prog (Mem α) β) := fun _ => wlp_pure fun _ h => h

theorem Keeps.ite {Q : Prop} [Decidable Q] {p q : Prog (Mem α) β} (h1 : Keeps p) (h2 : Keeps q) :
    Keeps (if Q then p else q) := by split <;> assumption

theorem Keeps.when {Q : Prop} [Decidable Q] {p : Prog (Mem α) Unit} (h1 : Keeps p) :
    Keeps (Prog.when Q p) := Keeps.ite h1 (Keeps.pure _)

theorem Keeps.dassert {Q : Prop} [Decidable Q] : Keeps (Prog.dassert Q : Prog (Mem α) Unit) :=
  fun _ => wlp_dassert fun _ _ h => h

theorem Keeps.fail {e : Fault} : Keeps (fail e : Prog (Mem α) β) := by
  intro m a m' hr; cases hr

theorem keeps_get (p : Ptr) : Keeps (LL.get (α := α) p) := by
  intro m a m' hr n hn
  obtain ⟨rfl, _⟩ := returns_get hr
  exact hn

theorem keeps_getNext (p : Ptr) : Keeps (memNodes.getNext p : Prog (Mem α) Ptr) :=
  (keeps_get p).bind fun _ => Keeps.pure _
theorem keeps_getPrev (p : Ptr) : Keeps (memNodes.getPrev p : Prog (Mem α) Ptr) :=
  (keeps_get p).bind fun _ => Keeps.pure _
theorem keeps_getData (p : Ptr) : Keeps (memNodes.getData p : Prog (Mem α) α) := by
  refine (keeps_get p).bind fun x => ?_
  cases hx : x.data with
  | none => exact Keeps.fail
  | some y => exact Keeps.pure y

theorem keeps_upd (p : Ptr) (g : Cell α → Cell α) :
    Keeps (do let _ ← LL.get p; modify fun m => m.upd p g : Prog (Mem α) Unit) := by
  refine (keeps_get p).bind fun _ m => wlp_modify fun n hn => ?_
  show (if _ then _ else _) ≠ none
  split
  · intro e
    exact hn (Option.map_eq_none_iff.1 e)
  · exact hn

theorem keeps_setNext (p q : Ptr) : Keeps (memNodes.setNext p q : Prog (Mem α) Unit) := keeps_upd p _
theorem keeps_setPrev (p q : Ptr) : Keeps (memNodes.setPrev p q : Prog (Mem α) Unit) := keeps_upd p _
theorem keeps_setData (p : Ptr) (x : α) : Keeps (memNodes.setData p x : Prog (Mem α) Unit) := keeps_upd p _

theorem keeps_getSize (k : Nat) : Keeps (memNodes.getSize k : Prog (Mem α) Nat) :=
  (keeps_get (.head k)).bind fun _ m a m' hr => by cases hr; exact fun _ h => h
theorem keeps_setSize (k n : Nat) : Keeps (memNodes.setSize k n : Prog (Mem α) Unit) :=
  (keeps_get (.head k)).bind fun _ m a m' hr => by cases hr; exact fun _ h => h
theorem keeps_getTail (k : Nat) : Keeps (memNodes.getTail k : Prog (Mem α) Ptr) :=
  (keeps_get (.head k)).bind fun _ m a m' hr => by cases hr; exact fun _ h => h
theorem keeps_setTail (k : Nat) (p : Ptr) : Keeps (memNodes.setTail k p : Prog (Mem α) Unit) :=
  (keeps_get (.head k)).bind fun _ m a m' hr => by cases hr; exact fun _ h => h

theorem keeps_alloc : Keeps (memNodes.alloc : Prog (Mem α) Ptr) := by
  intro m a m' hr n hn
  cases hr
  simp only
  split
  · simp
  · exact hn

theorem keeps_construct (p : Ptr) (x : Cell α) : Keeps (memNodes.construct p x) := by
  intro m a m' hr n hn
  unfold Returns memNodes LL.constructNode at hr
  simp only at hr
  split at hr
  · cases hr
  · split at hr
    · cases hr
    · cases hr
      simp only
      split
      · simp
      · exact hn

theorem keeps_getHead (k : Nat) : Keeps (memNodes.getHead k : Prog (Mem α) (Cell α)) := keeps_get (.head k)

theorem keeps_linkAdd (kd : Kind) (p q : Ptr) : Keeps (linkAdd memNodes kd p q : Prog (Mem α) Unit) := by
  cases kd with
  | singly => exact (keeps_getNext _).bind fun _ => (keeps_setNext _ _).bind fun _ => keeps_setNext _ _
  | doubly =>
    exact (keeps_getNext _).bind fun _ => (keeps_setNext _ _).bind fun _ => (keeps_setPrev _ _).bind fun _ =>
      (keeps_getNext _).bind fun _ => (Keeps.when (keeps_setPrev _ _)).bind fun _ => keeps_setNext _ _

theorem keeps_getArg (a : Arg α) : Keeps (getArg memNodes a) := by
  cases a with
  | val x => exact Keeps.pure x
  | ref p => exact keeps_getData p

theorem keeps_newNode (k : Nat) (a : Arg α) : Keeps (newNode memNodes k a) :=
  keeps_alloc.bind fun _ => (keeps_getArg a).bind fun _ => (keeps_setData _ _).bind fun _ =>
    (keeps_getHead k).bind fun _ => (keeps_construct _ _).bind fun _ => Keeps.pure _

theorem keeps_basePushFront (kd : Kind) (k : Nat) (a : Arg α) : Keeps (basePushFront memNodes kd k a) :=
  (keeps_newNode k a).bind fun _ => (keeps_linkAdd _ _ _).bind fun _ => (keeps_getSize _).bind fun _ =>
    keeps_setSize _ _

theorem keeps_dPushBack (k : Nat) (a : Arg α) : Keeps (LPool.D.pushBack memNodes k a) :=
  (keeps_newNode k a).bind fun _ => (keeps_getPrev _).bind fun _ => (keeps_linkAdd _ _ _).bind fun _ =>
    (keeps_getSize _).bind fun _ => keeps_setSize _ _

theorem keeps_sPushBack (k : Nat) (a : Arg α) : Keeps (LPool.S.pushBack memNodes k a) :=
  (keeps_newNode k a).bind fun _ => (keeps_getTail _).bind fun _ => (keeps_linkAdd _ _ _).bind fun _ =>
    (keeps_getSize _).bind fun _ => (keeps_setSize _ _).bind fun _ => keeps_setTail _ _

theorem keeps_forRange {p : Prog (Mem α) Unit} (h : Keeps p) (n lo : Nat) :
    Keeps (forRange n lo () fun _ _ => p) := by
  induction n generalizing lo with
  | zero => exact Keeps.pure _
  | succ n ih => exact h.bind fun _ => ih _

theorem Over.keep {p : Prog (Mem α) β} (h : Keeps p) {m m' : Mem α} {a : β} (hr : Returns p m a m')
    (ho : Over c G kd K m) : Over c G kd K m' := by
  intro hG
  obtain ⟨bs, h1, h2, h3⟩ := ho hG
  exact ⟨bs, h1, fun n hn => h m a m' hr n (h2 n hn), h3⟩

theorem Lack.keep {p : Prog (Mem α) β} (h : Keeps p) {m m' : Mem α} {a : β} {s : Sma.St} (hr : Returns p m a m')
    (ho : Lack md c G kd K s m) : Lack md c G kd K s m' := ⟨ho.1.keep h hr, ho.2⟩

end

theorem Sim.over {β γ : Type} {f : Nat → Nat} {m : Mem α} {w : PMem α} {s : Sma.St} {p : Prog (Mem α) β}
    {q : Prog (PMem α) γ} {A : (Nat → Nat) → Mem α → β → γ → Prop}
    (h : Sim c G kd K D (Lack md c G kd K s) f m w p q A) : Sim c G kd K D (Over c G kd K) f m w p q A :=
  h.mono (fun _ h => h.1) fun _ _ _ _ _ h => h

/-- A program on the nodes of the pool corresponds to one on nodes with identifiers. -/
theorem Sim.when {P : Mem α → Prop} {f : Nat → Nat} {m : Mem α} {w : PMem α} {Q Q' : Prop} [Decidable Q]
    [Decidable Q'] {p : Prog (Mem α) Unit} {q : Prog (PMem α) Unit} (hR : R c G kd K D f m w) (he : Q ↔ Q')
    (h1 : Q → Sim c G kd K D P f m w p q Same) :
    Sim c G kd K D P f m w (Prog.when Q p) (Prog.when Q' q) Same :=
  Sim.ite he h1 fun _ => Sim.pure hR rfl

/-- A partial-correctness statement about one program can be established by fixpoint induction. -/
theorem admissible_wlp1 {σ β : Type} (Q : σ → β → σ → Prop) :
    admissible (fun g : Prog σ β => ∀ s, wlp g (Q s) s) := by
  refine admissible_pi_apply (α := σ) (β := fun _ => Option (Except Fault (β × σ)))
    (fun s x => ∀ a t, x = some (.ok (a, t)) → Q s a t) (fun s => ?_)
  exact admissible_flatOrder _ (fun _ _ h => by cases h)

/-- Related arguments. -/
inductive ArgR (f : Nat → Nat) (m : Mem α) : Arg α → Arg α → Prop
  | val (x : α) : ArgR f m (.val x) (.val x)
  | ref {p p' : Ptr} (h : PR f m p p') : ArgR f m (.ref p) (.ref p')

theorem ArgR.ext {f f' : Nat → Nat} {m m' : Mem α} {a a' : Arg α} (h : ArgR f m a a') (he : Ext f m f' m') :
    ArgR f' m' a a' := by
  cases h with
  | val x => exact .val x
  | ref h => exact .ref (h.ext he)

section
variable {P : Mem α → Prop} {f : Nat → Nat} {m : Mem α} {w : PMem α}

theorem linkInit_sim (hc : Sma.Legal c) (h : R c G kd K D f m w) {p p' : Ptr} (hp : PR f m p p') :
    Sim c G kd K D P f m w (linkInit memNodes kd p) (linkInit (poolNodes md c kd K D) kd p') Same := by
  refine Sim.bind (setNext_sim hc h hp hp) fun f1 m1 w1 _ _ e1 h1 _ _ => ?_
  cases kd with
  | singly => exact Sim.pure h1 rfl
  | doubly => exact setPrev_sim hc h1 (hp.ext e1) (hp.ext e1)

theorem ne_null {p p' : Ptr} (h : PR f m p p') : p ≠ .null ↔ p' ≠ .null := by
  rw [h.2]; exact not_congr F_null.symm

theorem linkAdd_sim (hc : Sma.Legal c) (h : R c G kd K D f m w) {p p' q q' : Ptr} (hp : PR f m p p')
    (hq : PR f m q q') :
    Sim c G kd K D P f m w (linkAdd memNodes kd p q) (linkAdd (poolNodes md c kd K D) kd p' q') Same := by
  cases kd with
  | singly =>
    refine Sim.bind (getNext_sim hc h hp) fun f1 m1 w1 a a' e1 h1 r1 _ => ?_
    refine Sim.bind (setNext_sim hc h1 (hq.ext e1) r1) fun f2 m2 w2 _ _ e2 h2 _ _ => ?_
    exact setNext_sim hc h2 (hp.ext (e1.trans e2)) (hq.ext (e1.trans e2))
  | doubly =>
    refine Sim.bind (getNext_sim hc h hp) fun f1 m1 w1 a a' e1 h1 r1 _ => ?_
    refine Sim.bind (setNext_sim hc h1 (hq.ext e1) r1) fun f2 m2 w2 _ _ e2 h2 _ _ => ?_
    have e2 := e1.trans e2
    refine Sim.bind (setPrev_sim hc h2 (hq.ext e2) (hp.ext e2)) fun f3 m3 w3 _ _ e3 h3 _ _ => ?_
    have e3 := e2.trans e3
    refine Sim.bind (getNext_sim hc h3 (hp.ext e3)) fun f4 m4 w4 n n' e4 h4 r4 _ => ?_
    have e4 := e3.trans e4
    refine Sim.bind (Sim.when h4 (ne_null r4) fun _ => setPrev_sim hc h4 r4 (hq.ext e4)) fun f5 m5 w5 _ _ e5 h5 _ _ => ?_
    have e5 := e4.trans e5
    exact setNext_sim hc h5 (hp.ext e5) (hq.ext e5)

theorem linkDel_sim (hc : Sma.Legal c) (h : R c G kd K D f m w) {p p' q q' : Ptr} (hp : PR f m p p')
    (hq : PR f m q q') :
    Sim c G kd K D P f m w (linkDel memNodes kd p q) (linkDel (poolNodes md c kd K D) kd p' q') Same := by
  cases kd with
  | singly =>
    refine Sim.bind (getNext_sim hc h hq) fun f1 m1 w1 a a' e1 h1 r1 _ => ?_
    refine Sim.bind (setNext_sim hc h1 (hp.ext e1) r1) fun f2 m2 w2 _ _ e2 h2 _ _ => ?_
    exact setNext_sim hc h2 (hq.ext (e1.trans e2)) .null
  | doubly =>
    refine Sim.bind (getNext_sim hc h hq) fun f1 m1 w1 a a' e1 h1 r1 _ => ?_
    refine Sim.bind (setNext_sim hc h1 (hp.ext e1) r1) fun f2 m2 w2 _ _ e2 h2 _ _ => ?_
    have e2 := e1.trans e2
    refine Sim.bind (getNext_sim hc h2 (hq.ext e2)) fun f4 m4 w4 n n' e4 h4 r4 _ => ?_
    have e4 := e2.trans e4
    refine Sim.bind (Sim.when h4 (ne_null r4) fun _ => setPrev_sim hc h4 r4 (hp.ext e4)) fun f5 m5 w5 _ _ e5 h5 _ _ => ?_
    have e5 := e4.trans e5
    refine Sim.bind (setNext_sim hc h5 (hq.ext e5) .null) fun f6 m6 w6 _ _ e6 h6 _ _ => ?_
    exact setPrev_sim hc h6 (hq.ext (e5.trans e6)) .null

theorem baseNew_sim (hc : Sma.Legal c) (h : R c G kd K D f m w) (dflt : Option α) (k : Nat) :
    Sim c G kd K D P f m w (baseNew memNodes kd dflt k) (baseNew (poolNodes md c kd K D) kd dflt k) Same := by
  refine Sim.bind (makeHead_sim h k dflt) fun f1 m1 w1 _ _ e1 h1 _ _ => ?_
  refine Sim.bind (linkInit_sim hc h1 .head) fun f2 m2 w2 _ _ e2 h2 _ _ => ?_
  exact setSize_sim h2 k 0

theorem empty_sim (hc : Sma.Legal c) (h : R c G kd K D f m w) (k : Nat) :
    Sim c G kd K D P f m w (empty memNodes k) (empty (poolNodes md c kd K D) k) Same := by
  refine Sim.bind (getSize_sim h k) fun f1 m1 w1 a a' e1 h1 r1 _ => ?_
  cases r1
  refine Sim.ite Iff.rfl (fun _ => ?_) (fun _ => Sim.pure h1 rfl)
  refine Sim.bind (getNext_sim hc h1 .head) fun f2 m2 w2 q q' e2 h2 r2 _ => ?_
  refine Sim.bind (Sim.check h2 ?_) fun f3 m3 w3 _ _ e3 h3 _ _ => Sim.pure h3 rfl
  rintro rfl
  exact r2.2

theorem front_sim (hc : Sma.Legal c) (h : R c G kd K D f m w) (k : Nat) :
    Sim c G kd K D P f m w (front memNodes k) (front (poolNodes md c kd K D) k) Same := by
  refine Sim.bind (getNext_sim hc h .head) fun f1 m1 w1 q q' e1 h1 r1 _ => ?_
  exact getData_sim hc h1 r1

theorem getArg_sim (hc : Sma.Legal c) (h : R c G kd K D f m w) {a a' : Arg α} (ha : ArgR f m a a') :
    Sim c G kd K D P f m w (getArg memNodes a) (getArg (poolNodes md c kd K D) a') Same := by
  cases ha with
  | val x => exact Sim.pure h rfl
  | ref hp => exact getData_sim hc h hp

theorem newNode_sim (hc : Sma.Legal c) (hfit : 8 * nodeWords kd K + 8 < 2 ^ 31) (h : R c G kd K D f m w)
    (k : Nat) {a a' : Arg α} (ha : ArgR f m a a') :
    Sim c G kd K D (Lack md c G kd K w.pool) f m w (newNode memNodes k a) (newNode (poolNodes md c kd K D) k a') PR := by
  rcases alloc_sim (md := md) hc hfit h with hnull | hsim
  · -- the allocator returned null: `construct` stops the program
    intro b m2 hr
    obtain ⟨n, m1, r1, r2⟩ := returns_bind hr
    obtain ⟨ho, hal⟩ := hnull n m1 r1
    have hover : Lack md c G kd K w.pool m2 := ho.keep ((keeps_getArg a).bind fun _ => (keeps_setData _ _).bind
      fun _ => (keeps_getHead k).bind fun _ => (keeps_construct _ _).bind fun _ => Keeps.pure _) r2
    refine Or.inl ⟨hover, ?_⟩
    obtain ⟨x, t1, q1, q2⟩ := returns_bind r2
    obtain ⟨_, t2, q3, q4⟩ := returns_bind q2
    have hcell : m1.cell = fun y => if y = .node m.next then some none else m.cell y := by
      cases r1; rfl
    have harg : Returns (getArg memNodes a) m x m ∧ t1 = m1 := by
      cases a with
      | val y => obtain ⟨rfl, rfl⟩ := returns_pure q1; exact ⟨rfl, rfl⟩
      | ref p =>
        obtain ⟨e, h0, z, hz, hx⟩ := returns_getData q1
        refine ⟨?_, e⟩
        rw [hcell] at hz
        simp only at hz
        split at hz
        · cases hz
        · refine (bind_returns (a := z) (s' := m) ?_).trans ?_
          · unfold Returns LL.get
            rw [if_neg h0, hz]
          · rw [hx]
            rfl
    obtain ⟨harg, rfl⟩ := harg
    obtain ⟨_, ⟨z, hz⟩, _⟩ := returns_upd q3
    have hz' : m.cell (.head k) = some (some z) := by
      rw [hcell] at hz
      simp only at hz
      rwa [if_neg (by intro e; cases e)] at hz
    have hset : Returns ((memNodes (α := α)).setData (.head k) x) m ()
        (m.upd (.head k) fun h => { h with data := some x }) := by
      refine (bind_returns (a := z) (s' := m) ?_).trans rfl
      unfold Returns LL.get
      rw [if_neg (by intro e; cases e), hz']
    rcases getArg_sim (P := fun _ => False) (md := md) hc h ha x m harg with ⟨hp, _⟩ | ⟨x', w1, f1, e1, _, e2, r⟩
    · exact hp.elim
    obtain rfl : x' = x := r
    rcases setData_sim (P := fun _ => False) (md := md) hc e2 .head x' _ _ hset with ⟨hp, _⟩ | ⟨_, w2, f2, e3, _, e4, _⟩
    · exact hp.elim
    have hhead : ∃ y, w2.head k = some y :=
      ⟨_, e4.heads k { z with data := some x' } (by rw [upd_cell hz']; simp)⟩
    obtain ⟨y, hy⟩ := hhead
    unfold Faults newNode
    rw [bind_returns hal, bind_returns e1, bind_returns e3]
    rw [bind_returns (show Returns ((poolNodes md c kd K D).getHead k) w2 y w2 from by
      show getHead k w2 = _
      unfold getHead; rw [hy])]
    rfl
  refine Sim.bindM hsim ?_ fun f1 m1 w1 n n' e1 h1 r1 hr => ?_
  · intro x m1 b m2 hr ho
    exact ho.keep ((keeps_getArg a).bind fun _ => (keeps_setData _ _).bind fun _ =>
      (keeps_getHead k).bind fun _ => (keeps_construct _ _).bind fun _ => Keeps.pure _) hr
  obtain rfl : n = .node m.next := by cases hr; rfl
  clear hr
  refine Sim.bind (getArg_sim hc h1 (ha.ext e1)) fun f2 m2 w2 x x' e2 h2 r2 _ => ?_
  cases r2
  refine Sim.bind (setData_sim hc h2 .head x) fun f3 m3 w3 _ _ e3 h3 _ hr3 => ?_
  refine Sim.bind (getHead_sim h3 k) fun f4 m4 w4 y y' e4 h4 r4 hr4 => ?_
  have hr1 := (r1.ext e2).ext e3 |>.ext e4
  obtain ⟨hold, rfl⟩ := r4
  have hd : y.data ≠ none := by
    obtain ⟨_, ⟨z, hz⟩, rfl⟩ := returns_upd hr3
    obtain ⟨rfl, _, hy⟩ := returns_get (p := .head k) hr4
    rw [upd_cell hz] at hy
    simp only at hy
    rw [if_pos trivial] at hy
    cases hy
    simp
  obtain ⟨_, rfl⟩ := hr1
  refine Sim.bind (construct_sim hc h4 ⟨hold, hd⟩) fun f5 m5 w5 _ _ e5 h5 _ _ => ?_
  refine Sim.pure h5 ?_
  exact PR.ext (m := m4) (f := f4) ⟨by
    have := ((r1.ext e2).ext e3).ext e4
    exact this.1, rfl⟩ e5

theorem basePushFront_sim (hc : Sma.Legal c) (hfit : 8 * nodeWords kd K + 8 < 2 ^ 31)
    (h : R c G kd K D f m w) (k : Nat) {a a' : Arg α} (ha : ArgR f m a a') :
    Sim c G kd K D (Lack md c G kd K w.pool) f m w (basePushFront memNodes kd k a)
      (basePushFront (poolNodes md c kd K D) kd k a') Same := by
  refine Sim.bindM (newNode_sim hc hfit h k ha) ?_ fun f1 m1 w1 n n' e1 h1 r1 _ => ?_
  · intro x m1 b m2 hr ho
    exact ho.keep ((keeps_linkAdd _ _ _).bind fun _ => (keeps_getSize _).bind fun _ => keeps_setSize _ _) hr
  refine Sim.bind (linkAdd_sim hc h1 .head r1) fun f2 m2 w2 _ _ e2 h2 _ _ => ?_
  refine Sim.bind (getSize_sim h2 k) fun f3 m3 w3 _ _ e3 h3 r3 _ => ?_
  cases r3
  exact setSize_sim h3 k _

/-- Releasing a node and what follows. -/
theorem release_sim (hc : Sma.Legal c) (hfit : 8 * nodeWords kd K + 8 < 2 ^ 31) (h : R c G kd K D f m w)
    {p p' : Ptr} (hp : PR f m p p') (k : Nat) :
    Sim c G kd K D P f m w
      (do memNodes.destroy p; memNodes.free p; memNodes.setSize k ((← memNodes.getSize k) - 1))
      (do (poolNodes md c kd K D).destroy p'; (poolNodes md c kd K D).free p'
          (poolNodes md c kd K D).setSize k ((← (poolNodes md c kd K D).getSize k) - 1)) Same := by
  refine Sim.bind (destroy_sim hc h hp) fun f1 m1 w1 _ _ e1 h1 _ _ => ?_
  refine Sim.bind (free_sim hc hfit h1 (hp.ext e1)) fun f2 m2 w2 _ _ e2 h2 _ _ => ?_
  refine Sim.bind (getSize_sim h2 k) fun f3 m3 w3 _ _ e3 h3 r3 _ => ?_
  cases r3
  exact setSize_sim h3 k _

theorem basePopFront_sim (hc : Sma.Legal c) (hfit : 8 * nodeWords kd K + 8 < 2 ^ 31)
    (h : R c G kd K D f m w) (k : Nat) :
    Sim c G kd K D P f m w (basePopFront memNodes kd k) (basePopFront (poolNodes md c kd K D) kd k) Same := by
  refine Sim.bind (getSize_sim h k) fun f1 m1 w1 _ _ e1 h1 r1 _ => ?_
  cases r1
  refine Sim.bind (Sim.check h1 id) fun f2 m2 w2 _ _ e2 h2 _ _ => ?_
  refine Sim.bind (getNext_sim hc h2 .head) fun f3 m3 w3 l l' e3 h3 r3 _ => ?_
  refine Sim.bind (linkDel_sim hc h3 .head r3) fun f4 m4 w4 _ _ e4 h4 _ _ => ?_
  exact release_sim hc hfit h4 (r3.ext e4) k

theorem baseClear_sim (hc : Sma.Legal c) (hfit : 8 * nodeWords kd K + 8 < 2 ^ 31)
    (h : R c G kd K D f m w) (k : Nat) :
    Sim c G kd K D P f m w (baseClear memNodes kd k) (baseClear (poolNodes md c kd K D) kd k) Same := by
  have key : ∀ m : Mem α, wlp (baseClear memNodes kd k) (fun a m' => ∀ f w, R c G kd K D f m w →
      (False ∧ Faults (baseClear (poolNodes md c kd K D) kd k) w .crash) ∨ ∃ a' w' f',
        Returns (baseClear (poolNodes md c kd K D) kd k) w a' w' ∧ Ext f m f' m' ∧ R c G kd K D f' m' w' ∧
          Same f' m' a a') m := by
    refine baseClear.fixpoint_induct memNodes kd k _ (admissible_wlp1 _) ?_
    intro X ih m a m' hr f w h
    refine (?_ : Sim c G kd K D (fun _ => False) f m w _ _ Same) a m' hr
    rw [baseClear]
    refine Sim.bind (empty_sim hc h k) fun f1 m1 w1 _ b e1 h1 r1 _ => ?_
    cases r1
    refine Sim.ite Iff.rfl (fun _ => Sim.pure h1 rfl) fun _ => ?_
    refine Sim.bind (basePopFront_sim hc hfit h1 k) fun f2 m2 w2 _ _ e2 h2 _ _ => ?_
    intro a m' hr
    exact ih m2 a m' hr f2 w2 h2
  intro a m' hr
  rcases key m a m' hr f w h with ⟨h, _⟩ | h
  · exact h.elim
  · exact Or.inr h

theorem baseMove_sim (hc : Sma.Legal c) (hfit : 8 * nodeWords kd K + 8 < 2 ^ 31)
    (h : R c G kd K D f m w) (d s : Nat) :
    Sim c G kd K D P f m w (baseMove memNodes kd d s) (baseMove (poolNodes md c kd K D) kd d s) Same := by
  refine Sim.bind (baseClear_sim hc hfit h d) fun f1 m1 w1 _ _ e1 h1 _ _ => ?_
  refine Sim.bind (getHead_sim h1 s) fun f2 m2 w2 x x' e2 h2 r2 _ => ?_
  refine Sim.bind (getHead_sim h2 d) fun f3 m3 w3 y y' e3 h3 r3 hr3 => ?_
  have hx : (Old m3.next x.next ∧ Old m3.next x.prev) ∧ x' = cmap f3 x := by
    refine ⟨⟨r2.1.1.mono e3.next, r2.1.2.mono e3.next⟩, ?_⟩
    rw [r2.2]
    unfold cmap
    rw [F_congr e3.same r2.1.1, F_congr e3.same r2.1.2]
  obtain ⟨hx, rfl⟩ := hx
  have hd : ∃ y, m3.cell (.head d) = some (some y) := by
    obtain ⟨rfl, _, hy⟩ := returns_get (p := .head d) hr3
    exact ⟨_, hy⟩
  refine Sim.bind (putHead_sim h3 d hx hd) fun f4 m4 w4 _ _ e4 h4 _ _ => ?_
  refine Sim.bind (getSize_sim h4 s) fun f5 m5 w5 _ _ e5 h5 r5 _ => ?_
  cases r5
  refine Sim.bind (setSize_sim h5 d _) fun f6 m6 w6 _ _ e6 h6 _ _ => ?_
  refine Sim.bind (linkInit_sim hc h6 .head) fun f7 m7 w7 _ _ e7 h7 _ _ => ?_
  exact setSize_sim h7 s 0

theorem baseDrop_sim (hc : Sma.Legal c) (hfit : 8 * nodeWords kd K + 8 < 2 ^ 31)
    (h : R c G kd K D f m w) (k : Nat) :
    Sim c G kd K D P f m w (baseDrop memNodes kd k) (baseDrop (poolNodes md c kd K D) kd k) Same := by
  refine Sim.bind (baseClear_sim hc hfit h k) fun f1 m1 w1 _ _ e1 h1 _ _ => ?_
  exact dropHead_sim h1 k

theorem advance_sim (hc : Sma.Legal c) (i : Nat) {f : Nat → Nat} {m : Mem α} {w : PMem α}
    (h : R c G kd K D f m w) {p p' : Ptr} (hp : PR f m p p') :
    Sim c G kd K D P f m w (advance memNodes i p) (advance (poolNodes md c kd K D) i p') PR := by
  induction i generalizing f m w p p' with
  | zero => exact Sim.pure h hp
  | succ i ih =>
    refine Sim.bind (getNext_sim hc h hp) fun f1 m1 w1 q q' e1 h1 r1 _ => ?_
    exact ih h1 r1

theorem nth_sim (hc : Sma.Legal c) (h : R c G kd K D f m w) (k i : Nat) :
    Sim c G kd K D P f m w (nth memNodes k i) (nth (poolNodes md c kd K D) k i) PR := by
  refine Sim.bind (getNext_sim hc h .head) fun f1 m1 w1 q q' e1 h1 r1 _ => ?_
  exact advance_sim hc i h1 r1

theorem iterateFrom_sim (hc : Sma.Legal c) (h : R c G kd K D f m w) (k : Nat) {p p' : Ptr} (hp : PR f m p p') :
    Sim c G kd K D P f m w (iterateFrom memNodes k p) (iterateFrom (poolNodes md c kd K D) k p') Same := by
  have key : ∀ (p : Ptr) (m : Mem α), wlp (iterateFrom memNodes k p) (fun a m' => ∀ f w p', R c G kd K D f m w →
      PR f m p p' →
      (False ∧ Faults (iterateFrom (poolNodes md c kd K D) k p') w .crash) ∨ ∃ a' w' f',
        Returns (iterateFrom (poolNodes md c kd K D) k p') w a' w' ∧ Ext f m f' m' ∧ R c G kd K D f' m' w' ∧
          Same f' m' a a') m := by
    refine iterateFrom.fixpoint_induct memNodes k _ (Prog.admissible_wlp _) ?_
    intro X ih p m a m' hr f w p' h hp
    refine (?_ : Sim c G kd K D (fun _ => False) f m w _ _ Same) a m' hr
    rw [iterateFrom]
    refine Sim.ite ?_ (fun _ => Sim.pure h rfl) fun _ => ?_
    · rw [hp.2]; exact F_head.symm
    refine Sim.bind (getData_sim hc h hp) fun f1 m1 w1 _ _ e1 h1 r1 _ => ?_
    cases r1
    refine Sim.bind (getNext_sim hc h1 (hp.ext e1)) fun f2 m2 w2 q q' e2 h2 r2 _ => ?_
    refine Sim.bind (A := Same) ?_ fun f3 m3 w3 _ _ e3 h3 r3 _ => ?_
    · intro a m' hr
      exact ih q m2 a m' hr f2 w2 q' h2 r2
    · cases r3
      exact Sim.pure h3 rfl
  intro a m' hr
  rcases key p m a m' hr f w p' h hp with ⟨h, _⟩ | h
  · exact h.elim
  · exact Or.inr h

theorem iterate_sim (hc : Sma.Legal c) (h : R c G kd K D f m w) (k : Nat) :
    Sim c G kd K D P f m w (iterate memNodes k) (iterate (poolNodes md c kd K D) k) Same := by
  refine Sim.bind (getNext_sim hc h .head) fun f1 m1 w1 q q' e1 h1 r1 _ => ?_
  exact iterateFrom_sim hc h1 k r1

/-- Not a node, or one that is allocated. -/
def Known (m : Mem α) : Ptr → Prop
  | .node n => m.cell (.node n) ≠ none
  | _ => True

theorem F_inj (hc : Sma.Legal c) (h : R c G kd K D f m w) {p q : Ptr} (hp : Known m p) (hq : Known m q) :
    F f p = F f q ↔ p = q := by
  refine ⟨fun e => ?_, fun e => e ▸ rfl⟩
  cases p with
  | null => exact (F_null.1 e.symm).symm
  | head k => exact (F_head.1 e.symm).symm
  | node n =>
    cases q with
    | null => cases e
    | head k => cases e
    | node n' =>
      have : f n = f n' := Ptr.node.inj e
      rw [h.inj hc hp hq this]

end

/-! ## `DoublyLinkedList` -/

section
variable {P : Mem α → Prop} {f : Nat → Nat} {m : Mem α} {w : PMem α}

theorem dBack_sim (hc : Sma.Legal c) (h : R c G .doubly K D f m w) (k : Nat) :
    Sim c G .doubly K D P f m w (LPool.D.back memNodes k) (LPool.D.back (poolNodes md c .doubly K D) k) Same := by
  refine Sim.bind (getSize_sim h k) fun f1 m1 w1 _ _ e1 h1 r1 _ => ?_
  cases r1
  refine Sim.bind (Sim.check h1 id) fun f2 m2 w2 _ _ e2 h2 _ _ => ?_
  refine Sim.bind (getPrev_sim hc h2 .head) fun f3 m3 w3 l l' e3 h3 r3 _ => ?_
  exact getData_sim hc h3 r3

theorem dPushBack_sim (hc : Sma.Legal c) (hfit : 8 * nodeWords .doubly K + 8 < 2 ^ 31)
    (h : R c G .doubly K D f m w) (k : Nat) {a a' : Arg α} (ha : ArgR f m a a') :
    Sim c G .doubly K D (Lack md c G .doubly K w.pool) f m w (LPool.D.pushBack memNodes k a)
      (LPool.D.pushBack (poolNodes md c .doubly K D) k a') Same := by
  refine Sim.bindM (newNode_sim hc hfit h k ha) ?_ fun f1 m1 w1 n n' e1 h1 r1 _ => ?_
  · intro x m1 b m2 hr ho
    exact ho.keep ((keeps_getPrev _).bind fun _ => (keeps_linkAdd _ _ _).bind fun _ =>
      (keeps_getSize _).bind fun _ => keeps_setSize _ _) hr
  refine Sim.bind (getPrev_sim hc h1 .head) fun f2 m2 w2 q q' e2 h2 r2 _ => ?_
  refine Sim.bind (linkAdd_sim hc h2 r2 (r1.ext e2)) fun f3 m3 w3 _ _ e3 h3 _ _ => ?_
  refine Sim.bind (getSize_sim h3 k) fun f4 m4 w4 _ _ e4 h4 r4 _ => ?_
  cases r4
  exact setSize_sim h4 k _

theorem dPopBack_sim (hc : Sma.Legal c) (hfit : 8 * nodeWords .doubly K + 8 < 2 ^ 31)
    (h : R c G .doubly K D f m w) (k : Nat) :
    Sim c G .doubly K D P f m w (LPool.D.popBack memNodes k) (LPool.D.popBack (poolNodes md c .doubly K D) k) Same := by
  refine Sim.bind (getSize_sim h k) fun f1 m1 w1 _ _ e1 h1 r1 _ => ?_
  cases r1
  refine Sim.bind (Sim.check h1 id) fun f2 m2 w2 _ _ e2 h2 _ _ => ?_
  refine Sim.bind (getPrev_sim hc h2 .head) fun f3 m3 w3 l l' e3 h3 r3 _ => ?_
  refine Sim.bind (getPrev_sim hc h3 r3) fun f4 m4 w4 q q' e4 h4 r4 _ => ?_
  refine Sim.bind (linkDel_sim hc h4 r4 (r3.ext e4)) fun f5 m5 w5 _ _ e5 h5 _ _ => ?_
  exact release_sim hc hfit h5 ((r3.ext e4).ext e5) k

/-- The same step several times. -/
theorem forRange_sim {p : Prog (Mem α) Unit} {q : Prog (PMem α) Unit} (hk : Keeps p)
    (hs : ∀ f m w, R c G kd K D f m w → Sim c G kd K D (Over c G kd K) f m w p q Same) (n lo : Nat)
    {f : Nat → Nat} {m : Mem α} {w : PMem α} (h : R c G kd K D f m w) :
    Sim c G kd K D (Over c G kd K) f m w (forRange n lo () fun _ _ => p) (forRange n lo () fun _ _ => q) Same := by
  induction n generalizing lo f m w with
  | zero => exact Sim.pure h rfl
  | succ n ih =>
    refine Sim.bindM (hs f m w h) ?_ fun f1 m1 w1 _ _ e1 h1 _ _ => ?_
    · intro _ m1 b m2 hr ho
      exact ho.keep (keeps_forRange hk _ _) hr
    · exact ih _ h1

theorem dNewFill_sim (hc : Sma.Legal c) (hfit : 8 * nodeWords .doubly K + 8 < 2 ^ 31)
    (h : R c G .doubly K D f m w) (dflt : Option α) (k n : Nat) (x : α) :
    Sim c G .doubly K D (Over c G .doubly K) f m w (LPool.D.newFill memNodes dflt k n x)
      (LPool.D.newFill (poolNodes md c .doubly K D) dflt k n x) Same := by
  refine Sim.bind (baseNew_sim hc h dflt k) fun f1 m1 w1 _ _ e1 h1 _ _ => ?_
  exact forRange_sim (keeps_dPushBack k _) (fun f m w h => (dPushBack_sim hc hfit h k (.val x)).over) n 0 h1

theorem dCopyLoop_sim (hc : Sma.Legal c) (hfit : 8 * nodeWords .doubly K + 8 < 2 ^ 31)
    (h : R c G .doubly K D f m w) (d s : Nat) {p p' : Ptr} (hp : PR f m p p') :
    Sim c G .doubly K D (Over c G .doubly K) f m w (LPool.D.copyLoop memNodes d s p)
      (LPool.D.copyLoop (poolNodes md c .doubly K D) d s p') Same := by
  have key : ∀ (p : Ptr) (m : Mem α), wlp (LPool.D.copyLoop memNodes d s p) (fun a m' =>
      (∀ n, m.cell (.node n) ≠ none → m'.cell (.node n) ≠ none) ∧ ∀ f w p', R c G .doubly K D f m w →
      PR f m p p' →
      (Over c G .doubly K m' ∧ Faults (LPool.D.copyLoop (poolNodes md c .doubly K D) d s p') w .crash) ∨ ∃ a' w' f',
        Returns (LPool.D.copyLoop (poolNodes md c .doubly K D) d s p') w a' w' ∧ Ext f m f' m' ∧
          R c G .doubly K D f' m' w' ∧ Same f' m' a a') m := by
    refine LPool.D.copyLoop.fixpoint_induct memNodes d s _ (Prog.admissible_wlp _) ?_
    intro X ih p m a m' hr
    have hkX : ∀ q, Keeps (X q) := fun q m => wlp_mono (ih q m) fun _ _ h => h.1
    refine ⟨?_, ?_⟩
    · have : Keeps (if p = Ptr.head s then Pure.pure () else do
          LPool.D.pushBack memNodes d (.ref p)
          X (← memNodes.getNext p) : Prog (Mem α) Unit) :=
        Keeps.ite (Keeps.pure _) ((keeps_dPushBack _ _).bind fun _ => (keeps_getNext _).bind fun q => hkX q)
      exact this m a m' hr
    · intro f w p' h hp
      refine (?_ : Sim c G .doubly K D (Over c G .doubly K) f m w _ _ Same) a m' hr
      rw [LPool.D.copyLoop]
      refine Sim.ite ?_ (fun _ => Sim.pure h rfl) fun _ => ?_
      · rw [hp.2]; exact F_head.symm
      refine Sim.bindM (dPushBack_sim hc hfit h d (.ref hp)).over ?_ fun f1 m1 w1 _ _ e1 h1 _ _ => ?_
      · intro _ m1 b m2 hr ho
        exact ho.keep ((keeps_getNext _).bind fun q => hkX q) hr
      refine Sim.bind (getNext_sim hc h1 (hp.ext e1)) fun f2 m2 w2 q q' e2 h2 r2 _ => ?_
      intro a m' hr
      exact (ih q m2 a m' hr).2 f2 w2 q' h2 r2
  intro a m' hr
  exact (key p m a m' hr).2 f w p' h hp

theorem dCopyAssign_sim (hc : Sma.Legal c) (hfit : 8 * nodeWords .doubly K + 8 < 2 ^ 31)
    (h : R c G .doubly K D f m w) (d s : Nat) :
    Sim c G .doubly K D (Over c G .doubly K) f m w (LPool.D.copyAssign memNodes d s)
      (LPool.D.copyAssign (poolNodes md c .doubly K D) d s) Same := by
  refine Sim.bind (baseClear_sim hc hfit h d) fun f1 m1 w1 _ _ e1 h1 _ _ => ?_
  refine Sim.bind (getNext_sim hc h1 .head) fun f2 m2 w2 q q' e2 h2 r2 _ => ?_
  exact dCopyLoop_sim hc hfit h2 d s r2

theorem dMoveAssign_sim (hc : Sma.Legal c) (hfit : 8 * nodeWords .doubly K + 8 < 2 ^ 31)
    (h : R c G .doubly K D f m w) (d s : Nat) :
    Sim c G .doubly K D P f m w (LPool.D.moveAssign memNodes d s)
      (LPool.D.moveAssign (poolNodes md c .doubly K D) d s) Same := by
  refine Sim.bind (baseMove_sim hc hfit h d s) fun f1 m1 w1 _ _ e1 h1 _ _ => ?_
  refine Sim.bind (getPrev_sim hc h1 .head) fun f2 m2 w2 q q' e2 h2 r2 _ => ?_
  refine Sim.bind (setNext_sim hc h2 r2 .head) fun f3 m3 w3 _ _ e3 h3 _ _ => ?_
  refine Sim.bind (getNext_sim hc h3 .head) fun f4 m4 w4 q q' e4 h4 r4 _ => ?_
  exact setPrev_sim hc h4 r4 .head

theorem backwardFrom_sim (hc : Sma.Legal c) (h : R c G .doubly K D f m w) (k : Nat)
    (hcl : ∀ p x, p ≠ .null → m.cell p = some (some x) → Known m x.prev) {b b' p p' : Ptr} (hb : PR f m b b')
    (hbk : Known m b) (hp : PR f m p p') (hpk : Known m p) :
    Sim c G .doubly K D P f m w (LPool.D.backwardFrom memNodes k b p)
      (LPool.D.backwardFrom (poolNodes md c .doubly K D) k b' p') Same := by
  have key : ∀ (p : Ptr) (m : Mem α), wlp (LPool.D.backwardFrom memNodes k b p) (fun a m' =>
      ∀ f w b' p', R c G .doubly K D f m w → (∀ p x, p ≠ .null → m.cell p = some (some x) → Known m x.prev) →
      PR f m b b' → Known m b → PR f m p p' → Known m p →
      (False ∧ Faults (LPool.D.backwardFrom (poolNodes md c .doubly K D) k b' p') w .crash) ∨ ∃ a' w' f',
        Returns (LPool.D.backwardFrom (poolNodes md c .doubly K D) k b' p') w a' w' ∧ Ext f m f' m' ∧
          R c G .doubly K D f' m' w' ∧ Same f' m' a a') m := by
    refine LPool.D.backwardFrom.fixpoint_induct memNodes k b _ (Prog.admissible_wlp _) ?_
    intro X ih p m a m' hr f w b' p' h hcl hb hbk hp hpk
    refine (?_ : Sim c G .doubly K D (fun _ => False) f m w _ _ Same) a m' hr
    rw [LPool.D.backwardFrom]
    refine Sim.ite ?_ (fun _ => Sim.pure h rfl) fun _ => ?_
    · rw [hp.2, hb.2]; exact (F_inj hc h hpk hbk).symm
    refine Sim.bind (getPrev_sim hc h hp) fun f1 m1 w1 q q' e1 h1 r1 hr1 => ?_
    obtain ⟨rfl, hn, y, hy, rfl⟩ := returns_getPrev hr1
    refine Sim.bind (getData_sim hc h1 r1) fun f2 m2 w2 _ _ e2 h2 r2 hr2 => ?_
    cases r2
    obtain ⟨rfl, _⟩ := returns_getData hr2
    refine Sim.bind (A := Same) ?_ fun f3 m3 w3 _ _ e3 h3 r3 _ => ?_
    · intro a m' hr
      exact ih _ _ a m' hr f2 w2 b' q' h2 hcl (hb.ext (e1.trans e2)) hbk (r1.ext e2) (hcl _ _ hn hy)
    · cases r3
      exact Sim.pure h3 rfl
  intro a m' hr
  rcases key p m a m' hr f w b' p' h hcl hb hbk hp hpk with ⟨h, _⟩ | h
  · exact h.elim
  · exact Or.inr h

theorem backward_sim (hc : Sma.Legal c) (h : R c G .doubly K D f m w) (k : Nat)
    (hcl : ∀ p x, p ≠ .null → m.cell p = some (some x) → Known m x.next ∧ Known m x.prev) :
    Sim c G .doubly K D P f m w (LPool.D.backward memNodes k)
      (LPool.D.backward (poolNodes md c .doubly K D) k) Same := by
  refine Sim.bind (getNext_sim hc h .head) fun f1 m1 w1 q q' e1 h1 r1 hr1 => ?_
  obtain ⟨rfl, _, y, hy, rfl⟩ := returns_getNext hr1
  exact backwardFrom_sim hc h1 k (fun p x hn hx => (hcl p x hn hx).2) r1 (hcl _ _ (by simp) hy).1 .head trivial

/-- What must be the case if an operation stops the program for lack of memory. -/
def dStop (c : Sma.Cfg) (N : Nat) (s : Sma.St) : DL.Op α → Prop
  | .pushFront _ _ | .pushBack _ _ => Pool.NoRoom c s (Slots.size N)
  | .newFill _ _ _ | .pushFrontElem _ _ _ | .pushBackElem _ _ _ | .copy _ _ => True
  | _ => False

theorem Sim.may {β γ : Type} {f : Nat → Nat} {m : Mem α} {w : PMem α} {p : Prog (Mem α) β}
    {q : Prog (PMem α) γ} {A : (Nat → Nat) → Mem α → β → γ → Prop} {Q : Prop}
    (h : Sim c G kd K D (Over c G kd K) f m w p q A) (hQ : Q) :
    Sim c G kd K D (fun m' => Over c G kd K m' ∧ Q) f m w p q A :=
  h.mono (fun _ h => ⟨h, hQ⟩) fun _ _ _ _ _ h => h

theorem dStep_sim (hc : Sma.Legal c) (hfit : 8 * nodeWords .doubly K + 8 < 2 ^ 31)
    (h : R c G .doubly K D f m w) (dflt : Option α) (op : DL.Op α) :
    Sim c G .doubly K D (fun m' => Over c G .doubly K m' ∧ (md = .port → dStop c (nodeWords .doubly K) w.pool op)) f m w (LPool.D.step memNodes dflt op)
      (LPool.D.step (poolNodes md c .doubly K D) dflt op) Same := by
  cases op with
  | new k => exact baseNew_sim hc h dflt k
  | newFill k n x => exact (dNewFill_sim hc hfit h dflt k n x).may fun _ => trivial
  | pushFront k x => exact basePushFront_sim hc hfit h k (.val x)
  | pushBack k x => exact dPushBack_sim hc hfit h k (.val x)
  | pushFrontElem k j i =>
    refine Sim.bind (nth_sim hc h j i) fun f1 m1 w1 q q' e1 h1 r1 _ => ?_
    exact (basePushFront_sim hc hfit h1 k (.ref r1)).over.may fun _ => trivial
  | pushBackElem k j i =>
    refine Sim.bind (nth_sim hc h j i) fun f1 m1 w1 q q' e1 h1 r1 _ => ?_
    exact (dPushBack_sim hc hfit h1 k (.ref r1)).over.may fun _ => trivial
  | set k i x =>
    refine Sim.bind (nth_sim hc h k i) fun f1 m1 w1 q q' e1 h1 r1 _ => ?_
    exact setData_sim hc h1 r1 x
  | popFront k => exact basePopFront_sim hc hfit h k
  | popBack k => exact dPopBack_sim hc hfit h k
  | clear k => exact baseClear_sim hc hfit h k
  | copy d s =>
    refine Sim.bind (getHead_sim h d) fun f1 m1 w1 _ _ e1 h1 _ _ => ?_
    refine Sim.bind (getHead_sim h1 s) fun f2 m2 w2 _ _ e2 h2 _ _ => ?_
    exact Sim.ite Iff.rfl (fun _ => Sim.pure h2 rfl) fun _ => (dCopyAssign_sim hc hfit h2 d s).may fun _ => trivial
  | move d s =>
    refine Sim.bind (getHead_sim h d) fun f1 m1 w1 _ _ e1 h1 _ _ => ?_
    refine Sim.bind (getHead_sim h1 s) fun f2 m2 w2 _ _ e2 h2 _ _ => ?_
    exact Sim.ite Iff.rfl (fun _ => Sim.pure h2 rfl) fun _ => dMoveAssign_sim hc hfit h2 d s
  | drop k => exact baseDrop_sim hc hfit h k

end

/-! ## `SinglyLinkedList` -/

section
variable {P : Mem α → Prop} {f : Nat → Nat} {m : Mem α} {w : PMem α}

theorem sNew_sim (hc : Sma.Legal c) (h : R c G .singly K D f m w) (dflt : Option α) (k : Nat) :
    Sim c G .singly K D P f m w (LPool.S.new memNodes dflt k) (LPool.S.new (poolNodes md c .singly K D) dflt k) Same := by
  refine Sim.bind (baseNew_sim hc h dflt k) fun f1 m1 w1 _ _ e1 h1 _ _ => ?_
  exact setTail_sim h1 k .head

theorem sBack_sim (hc : Sma.Legal c) (h : R c G .singly K D f m w) (k : Nat) :
    Sim c G .singly K D P f m w (LPool.S.back memNodes k) (LPool.S.back (poolNodes md c .singly K D) k) Same := by
  refine Sim.bind (getSize_sim h k) fun f1 m1 w1 _ _ e1 h1 r1 _ => ?_
  cases r1
  refine Sim.bind (Sim.check h1 id) fun f2 m2 w2 _ _ e2 h2 _ _ => ?_
  refine Sim.bind (getTail_sim h2 k) fun f3 m3 w3 l l' e3 h3 r3 _ => ?_
  exact getData_sim hc h3 r3

theorem sPushBack_sim (hc : Sma.Legal c) (hfit : 8 * nodeWords .singly K + 8 < 2 ^ 31)
    (h : R c G .singly K D f m w) (k : Nat) {a a' : Arg α} (ha : ArgR f m a a') :
    Sim c G .singly K D (Lack md c G .singly K w.pool) f m w (LPool.S.pushBack memNodes k a)
      (LPool.S.pushBack (poolNodes md c .singly K D) k a') Same := by
  refine Sim.bindM (newNode_sim hc hfit h k ha) ?_ fun f1 m1 w1 n n' e1 h1 r1 _ => ?_
  · intro x m1 b m2 hr ho
    exact ho.keep ((keeps_getTail _).bind fun _ => (keeps_linkAdd _ _ _).bind fun _ =>
      (keeps_getSize _).bind fun _ => (keeps_setSize _ _).bind fun _ => keeps_setTail _ _) hr
  refine Sim.bind (getTail_sim h1 k) fun f2 m2 w2 q q' e2 h2 r2 _ => ?_
  refine Sim.bind (linkAdd_sim hc h2 r2 (r1.ext e2)) fun f3 m3 w3 _ _ e3 h3 _ _ => ?_
  refine Sim.bind (getSize_sim h3 k) fun f4 m4 w4 _ _ e4 h4 r4 _ => ?_
  cases r4
  refine Sim.bind (setSize_sim h4 k _) fun f5 m5 w5 _ _ e5 h5 _ _ => ?_
  exact setTail_sim h5 k ((((r1.ext e2).ext e3).ext e4).ext e5)

theorem sPushFront_sim (hc : Sma.Legal c) (hfit : 8 * nodeWords .singly K + 8 < 2 ^ 31)
    (h : R c G .singly K D f m w) (k : Nat) {a a' : Arg α} (ha : ArgR f m a a') :
    Sim c G .singly K D (Lack md c G .singly K w.pool) f m w (LPool.S.pushFront memNodes k a)
      (LPool.S.pushFront (poolNodes md c .singly K D) k a') Same := by
  refine Sim.bindM (basePushFront_sim hc hfit h k ha) ?_ fun f1 m1 w1 _ _ e1 h1 _ _ => ?_
  · intro x m1 b m2 hr ho
    exact ho.keep ((keeps_getSize _).bind fun _ => Keeps.ite
      ((keeps_getNext _).bind fun _ => keeps_setTail _ _) (Keeps.pure _)) hr
  refine Sim.bind (getSize_sim h1 k) fun f2 m2 w2 _ _ e2 h2 r2 _ => ?_
  cases r2
  refine Sim.ite Iff.rfl (fun _ => ?_) fun _ => Sim.pure h2 rfl
  refine Sim.bind (getNext_sim hc h2 .head) fun f3 m3 w3 q q' e3 h3 r3 _ => ?_
  exact setTail_sim h3 k r3

theorem sPopFront_sim (hc : Sma.Legal c) (hfit : 8 * nodeWords .singly K + 8 < 2 ^ 31)
    (h : R c G .singly K D f m w) (k : Nat) :
    Sim c G .singly K D P f m w (LPool.S.popFront memNodes k) (LPool.S.popFront (poolNodes md c .singly K D) k) Same := by
  refine Sim.bind (basePopFront_sim hc hfit h k) fun f1 m1 w1 _ _ e1 h1 _ _ => ?_
  refine Sim.bind (getSize_sim h1 k) fun f2 m2 w2 _ _ e2 h2 r2 _ => ?_
  cases r2
  exact Sim.ite Iff.rfl (fun _ => setTail_sim h2 k .head) fun _ => Sim.pure h2 rfl

theorem sClear_sim (hc : Sma.Legal c) (hfit : 8 * nodeWords .singly K + 8 < 2 ^ 31)
    (h : R c G .singly K D f m w) (k : Nat) :
    Sim c G .singly K D P f m w (LPool.S.clear memNodes k) (LPool.S.clear (poolNodes md c .singly K D) k) Same := by
  refine Sim.bind (baseClear_sim hc hfit h k) fun f1 m1 w1 _ _ e1 h1 _ _ => ?_
  exact setTail_sim h1 k .head

theorem returns_getTail {k : Nat} {q : Ptr} {m m' : Mem α} (hr : Returns (LL.getTail k) m q m') :
    m' = m ∧ q = m.tail k := by
  obtain ⟨h, m1, r1, r2⟩ := returns_bind hr
  obtain ⟨rfl, hp, hk⟩ := returns_get r1
  cases r2
  exact ⟨rfl, rfl⟩

theorem findLast_sim (hc : Sma.Legal c) (h : R c G .singly K D f m w) (k : Nat)
    (hcl : ∀ p x, p ≠ .null → m.cell p = some (some x) → Known m x.next) (htl : Known m (m.tail k)) {p p' : Ptr}
    (hp : PR f m p p') :
    Sim c G .singly K D P f m w (LPool.S.findLast memNodes k p)
      (LPool.S.findLast (poolNodes md c .singly K D) k p') PR := by
  have key : ∀ (p : Ptr) (m : Mem α), wlp (LPool.S.findLast memNodes k p) (fun a m' =>
      ∀ f w p', R c G .singly K D f m w → (∀ p x, p ≠ .null → m.cell p = some (some x) → Known m x.next) →
      Known m (m.tail k) → PR f m p p' →
      (False ∧ Faults (LPool.S.findLast (poolNodes md c .singly K D) k p') w .crash) ∨ ∃ a' w' f',
        Returns (LPool.S.findLast (poolNodes md c .singly K D) k p') w a' w' ∧ Ext f m f' m' ∧
          R c G .singly K D f' m' w' ∧ PR f' m' a a') m := by
    refine LPool.S.findLast.fixpoint_induct memNodes k _ (Prog.admissible_wlp _) ?_
    intro X ih p m a m' hr f w p' h hcl htl hp
    refine (?_ : Sim c G .singly K D (fun _ => False) f m w _ _ PR) a m' hr
    rw [LPool.S.findLast]
    refine Sim.bind (getNext_sim hc h hp) fun f1 m1 w1 q q' e1 h1 r1 hr1 => ?_
    obtain ⟨rfl, hn, y, hy, rfl⟩ := returns_getNext hr1
    refine Sim.bind (getTail_sim h1 k) fun f2 m2 w2 t t' e2 h2 r2 hr2 => ?_
    obtain ⟨rfl, rfl⟩ := returns_getTail hr2
    have r1' := r1.ext e2
    refine Sim.ite ?_ (fun _ => Sim.pure h2 (hp.ext (e1.trans e2))) fun _ => ?_
    · rw [r1'.2, r2.2]; exact (F_inj hc h2 (hcl _ _ hn hy) htl).symm
    refine Sim.bind (getNext_sim hc h2 (hp.ext (e1.trans e2))) fun f3 m3 w3 q q' e3 h3 r3 hr3 => ?_
    obtain ⟨rfl, _⟩ := returns_getNext hr3
    intro a m' hr
    exact ih q _ a m' hr f3 w3 q' h3 hcl htl r3
  intro a m' hr
  rcases key p m a m' hr f w p' h hcl htl hp with ⟨h, _⟩ | h
  · exact h.elim
  · exact Or.inr h

theorem sPopBack_sim (hc : Sma.Legal c) (hfit : 8 * nodeWords .singly K + 8 < 2 ^ 31)
    (h : R c G .singly K D f m w) (k : Nat)
    (hcl : ∀ p x, p ≠ .null → m.cell p = some (some x) → Known m x.next) (htl : Known m (m.tail k)) :
    Sim c G .singly K D P f m w (LPool.S.popBack memNodes k) (LPool.S.popBack (poolNodes md c .singly K D) k) Same := by
  refine Sim.bind (getSize_sim h k) fun f1 m1 w1 _ _ e1 h1 r1 hr1 => ?_
  cases r1
  obtain rfl : m1 = m := by
    obtain ⟨x, m2, r1, r2⟩ := returns_bind (p := LL.get (.head k)) hr1
    obtain ⟨rfl, _, hk⟩ := returns_get r1
    cases r2; rfl
  refine Sim.bind (Sim.check h1 id) fun f2 m2 w2 _ _ e2 h2 _ hr2 => ?_
  obtain ⟨_, rfl⟩ := returns_check hr2
  refine Sim.bind (findLast_sim hc h2 k hcl htl .head) fun f3 m3 w3 l l' e3 h3 r3 _ => ?_
  refine Sim.bind (getTail_sim h3 k) fun f4 m4 w4 q q' e4 h4 r4 _ => ?_
  refine Sim.bind (destroy_sim hc h4 r4) fun f5 m5 w5 _ _ e5 h5 _ _ => ?_
  refine Sim.bind (getTail_sim h5 k) fun f6 m6 w6 q q' e6 h6 r6 _ => ?_
  refine Sim.bind (free_sim hc hfit h6 r6) fun f7 m7 w7 _ _ e7 h7 _ _ => ?_
  refine Sim.bind (getSize_sim h7 k) fun f8 m8 w8 _ _ e8 h8 r8 _ => ?_
  cases r8
  refine Sim.bind (setSize_sim h8 k _) fun f9 m9 w9 _ _ e9 h9 _ _ => ?_
  have e := ((((e4.trans e5).trans e6).trans e7).trans e8).trans e9
  refine Sim.bind (setTail_sim h9 k (r3.ext e)) fun f10 m10 w10 _ _ e10 h10 _ _ => ?_
  exact setNext_sim hc h10 (r3.ext (e.trans e10)) .head

theorem sNewFill_sim (hc : Sma.Legal c) (hfit : 8 * nodeWords .singly K + 8 < 2 ^ 31)
    (h : R c G .singly K D f m w) (dflt : Option α) (k n : Nat) (x : α) :
    Sim c G .singly K D (Over c G .singly K) f m w (LPool.S.newFill memNodes dflt k n x)
      (LPool.S.newFill (poolNodes md c .singly K D) dflt k n x) Same := by
  refine Sim.bind (sNew_sim hc h dflt k) fun f1 m1 w1 _ _ e1 h1 _ _ => ?_
  exact forRange_sim (keeps_sPushBack k _) (fun f m w h => (sPushBack_sim hc hfit h k (.val x)).over) n 0 h1

theorem sCopyLoop_sim (hc : Sma.Legal c) (hfit : 8 * nodeWords .singly K + 8 < 2 ^ 31)
    (h : R c G .singly K D f m w) (d s : Nat) {o o' p p' : Ptr} (ho : PR f m o o') (hp : PR f m p p') :
    Sim c G .singly K D (Over c G .singly K) f m w (LPool.S.copyLoop memNodes d s o p)
      (LPool.S.copyLoop (poolNodes md c .singly K D) d s o' p') Same := by
  have key : ∀ (p : Ptr) (m : Mem α), wlp (LPool.S.copyLoop memNodes d s o p) (fun a m' =>
      (∀ n, m.cell (.node n) ≠ none → m'.cell (.node n) ≠ none) ∧ ∀ f w o' p', R c G .singly K D f m w →
      PR f m o o' → PR f m p p' →
      (Over c G .singly K m' ∧ Faults (LPool.S.copyLoop (poolNodes md c .singly K D) d s o' p') w .crash) ∨
        ∃ a' w' f',
        Returns (LPool.S.copyLoop (poolNodes md c .singly K D) d s o' p') w a' w' ∧ Ext f m f' m' ∧
          R c G .singly K D f' m' w' ∧ Same f' m' a a') m := by
    refine LPool.S.copyLoop.fixpoint_induct memNodes d s o _ (Prog.admissible_wlp _) ?_
    intro X ih p m a m' hr
    have hkX : ∀ q, Keeps (X q) := fun q m => wlp_mono (ih q m) fun _ _ h => h.1
    refine ⟨?_, ?_⟩
    · have : Keeps (if p = Ptr.head s then Pure.pure () else do
          LPool.S.pushBack memNodes d (.ref o)
          X (← memNodes.getNext p) : Prog (Mem α) Unit) :=
        Keeps.ite (Keeps.pure _) ((keeps_sPushBack _ _).bind fun _ => (keeps_getNext _).bind fun q => hkX q)
      exact this m a m' hr
    · intro f w o' p' h ho hp
      refine (?_ : Sim c G .singly K D (Over c G .singly K) f m w _ _ Same) a m' hr
      rw [LPool.S.copyLoop]
      refine Sim.ite ?_ (fun _ => Sim.pure h rfl) fun _ => ?_
      · rw [hp.2]; exact F_head.symm
      refine Sim.bindM (sPushBack_sim hc hfit h d (.ref ho)).over ?_ fun f1 m1 w1 _ _ e1 h1 _ _ => ?_
      · intro _ m1 b m2 hr ho
        exact ho.keep ((keeps_getNext _).bind fun q => hkX q) hr
      refine Sim.bind (getNext_sim hc h1 (hp.ext e1)) fun f2 m2 w2 q q' e2 h2 r2 _ => ?_
      intro a m' hr
      exact (ih q m2 a m' hr).2 f2 w2 o' q' h2 (ho.ext (e1.trans e2)) r2
  intro a m' hr
  exact (key p m a m' hr).2 f w o' p' h ho hp

theorem keeps_sCopyLoop (d s : Nat) (o p : Ptr) : Keeps (LPool.S.copyLoop (memNodes (α := α)) d s o p) := by
  refine LPool.S.copyLoop.fixpoint_induct (memNodes (α := α)) d s o (fun X => ∀ p, Keeps (X p))
    (Prog.admissible_wlp _) ?_ p
  intro X ih p
  exact Keeps.ite (Keeps.pure _) ((keeps_sPushBack _ _).bind fun _ => (keeps_getNext _).bind fun q => ih q)

theorem sCopyAssign_sim (hc : Sma.Legal c) (hfit : 8 * nodeWords .singly K + 8 < 2 ^ 31)
    (h : R c G .singly K D f m w) (d s : Nat) :
    Sim c G .singly K D (Over c G .singly K) f m w (LPool.S.copyAssign memNodes d s)
      (LPool.S.copyAssign (poolNodes md c .singly K D) d s) Same := by
  refine Sim.bind (sClear_sim hc hfit h d) fun f1 m1 w1 _ _ e1 h1 _ _ => ?_
  refine Sim.bind (getSize_sim h1 s) fun f2 m2 w2 _ _ e2 h2 r2 _ => ?_
  cases r2
  refine Sim.ite Iff.rfl (fun _ => ?_) fun _ => Sim.pure h2 rfl
  refine Sim.bind (getNext_sim hc h2 .head) fun f3 m3 w3 q q' e3 h3 r3 _ => ?_
  refine Sim.bind (getNext_sim hc h3 r3) fun f4 m4 w4 p p' e4 h4 r4 _ => ?_
  refine Sim.bindM (sCopyLoop_sim hc hfit h4 d s (r3.ext e4) r4) ?_ fun f5 m5 w5 _ _ e5 h5 _ _ => ?_
  · intro _ m1 b m2 hr ho
    exact ho.keep ((keeps_sPushBack _ _).bind fun _ => keeps_setTail _ _) hr
  refine Sim.bindM (sPushBack_sim hc hfit h5 d (.ref ((r3.ext e4).ext e5))).over ?_ fun f6 m6 w6 _ _ e6 h6 _ _ => ?_
  · intro _ m1 b m2 hr ho
    exact ho.keep (keeps_setTail _ _) hr
  exact setTail_sim h6 d (((r3.ext e4).ext e5).ext e6)

theorem sMoveAssign_sim (hc : Sma.Legal c) (hfit : 8 * nodeWords .singly K + 8 < 2 ^ 31)
    (h : R c G .singly K D f m w) (d s : Nat) :
    Sim c G .singly K D P f m w (LPool.S.moveAssign memNodes d s)
      (LPool.S.moveAssign (poolNodes md c .singly K D) d s) Same := by
  refine Sim.bind (baseMove_sim hc hfit h d s) fun f1 m1 w1 _ _ e1 h1 _ _ => ?_
  refine Sim.bind (getTail_sim h1 s) fun f2 m2 w2 q q' e2 h2 r2 _ => ?_
  refine Sim.bind (setTail_sim h2 d r2) fun f3 m3 w3 _ _ e3 h3 _ _ => ?_
  refine Sim.bind (getTail_sim h3 d) fun f4 m4 w4 q q' e4 h4 r4 _ => ?_
  refine Sim.bind (setNext_sim hc h4 r4 .head) fun f5 m5 w5 _ _ e5 h5 _ _ => ?_
  exact setTail_sim h5 s .head

/-- What must be the case if an operation stops the program for lack of memory. -/
def sStop (c : Sma.Cfg) (N : Nat) (s : Sma.St) : SL.Op α → Prop
  | .pushFront _ _ | .pushBack _ _ | .push _ _ => Pool.NoRoom c s (Slots.size N)
  | .newFill _ _ _ | .copy _ _ => True
  | _ => False

theorem sStep_sim (hc : Sma.Legal c) (hfit : 8 * nodeWords .singly K + 8 < 2 ^ 31)
    (h : R c G .singly K D f m w) (hcl : ∀ p x, p ≠ .null → m.cell p = some (some x) → Known m x.next)
    (htl : ∀ k x, m.cell (.head k) = some (some x) → Known m (m.tail k)) (dflt : Option α) (op : SL.Op α) :
    Sim c G .singly K D (fun m' => Over c G .singly K m' ∧ (md = .port → sStop c (nodeWords .singly K) w.pool op)) f m w (LPool.S.step memNodes dflt op)
      (LPool.S.step (poolNodes md c .singly K D) dflt op) Same := by
  cases op with
  | new k => exact sNew_sim hc h dflt k
  | newFill k n x => exact (sNewFill_sim hc hfit h dflt k n x).may fun _ => trivial
  | pushFront k x => exact sPushFront_sim hc hfit h k (.val x)
  | pushBack k x => exact sPushBack_sim hc hfit h k (.val x)
  | popFront k => exact sPopFront_sim hc hfit h k
  | popBack k =>
    intro a m' hr
    obtain ⟨x, hx⟩ : ∃ x, m.cell (.head k) = some (some x) := by
      obtain ⟨n, m1, r1, _⟩ := returns_bind (p := memNodes.getSize k) hr
      obtain ⟨x, m2, r1, _⟩ := returns_bind (p := LL.get (.head k)) r1
      exact ⟨x, (returns_get r1).2.2⟩
    have := sPopBack_sim (md := md) (P := fun m' : Mem α => Over c G .singly K m' ∧
      (md = .port → sStop c (nodeWords .singly K) w.pool (SL.Op.popBack (α := α) k))) hc hfit h k hcl (htl k x hx)
    exact this a m' hr
  | push k x => exact basePushFront_sim hc hfit h k (.val x)
  | pop k => exact basePopFront_sim hc hfit h k
  | clear k => exact sClear_sim hc hfit h k
  | copy d s =>
    refine Sim.bind (getHead_sim h d) fun f1 m1 w1 _ _ e1 h1 _ _ => ?_
    refine Sim.bind (getHead_sim h1 s) fun f2 m2 w2 _ _ e2 h2 _ _ => ?_
    exact Sim.ite Iff.rfl (fun _ => Sim.pure h2 rfl) fun _ => (sCopyAssign_sim hc hfit h2 d s).may fun _ => trivial
  | move d s =>
    refine Sim.bind (getHead_sim h d) fun f1 m1 w1 _ _ e1 h1 _ _ => ?_
    refine Sim.bind (getHead_sim h1 s) fun f2 m2 w2 _ _ e2 h2 _ _ => ?_
    exact Sim.ite Iff.rfl (fun _ => Sim.pure h2 rfl) fun _ => sMoveAssign_sim hc hfit h2 d s
  | drop k => exact baseDrop_sim hc hfit h k

end

end Verif.LPool
