import Verif.TreePool
import Verif.PoolSlots
import Verif.Partial

/-! Helper lemmas: the parts the functions of the trees are made of do on the bytes of the static pool
what they do on nodes with identifiers. -/

namespace Verif.TPool

open Prog Lean.Order
open Verif.Tree (Ptr Order St)
open Verif.Pool (returns_bind returns_pure returns_check check_ok pokeN place)

variable {δ β γ β' γ' : Type}

/-! ## The relation between nodes with identifiers and bytes -/

/-- A pointer to a node of `S`, or null. -/
def In (S : Nat → Prop) (p : Ptr) : Prop := ∀ n, p = some n → S n

/-- The same pointer: node `n` is at address `f n`. -/
def PR (f : Nat → Nat) (S : Nat → Prop) (p p' : Ptr) : Prop := p' = p.map f ∧ In S p

/-- Different nodes of `S` are at different addresses. -/
def Inj (f : Nat → Nat) (S : Nat → Prop) : Prop := ∀ n n', S n → S n' → f n = f n' → n = n'

/-- The bytes at address `a` are this node. -/
structure CellAt (K : Pool.Layout δ) (E : PtrRep) (f : Nat → Nat) (mem : Nat → Sma.Cell) (a : Nat)
    (p l r : Ptr) (d : δ) : Prop where
  par : mem a = E.enc (p.map f)
  lft : mem (a + 8) = E.enc (l.map f)
  rgt : mem (a + 16) = E.enc (r.map f)
  dat : ∀ j, j < K.words → mem (a + 24 + 8 * j) = K.enc d j

/-- The same tree nodes, with node `n` at address `f n` of the pool.  All pointers are to nodes of
`S`. -/
structure R (c : Sma.Cfg) (G : Slots.Env) (K : Pool.Layout δ) (E : PtrRep) (f : Nat → Nat) (S : Nat → Prop) (s : St δ)
    (w : PSt) : Prop where
  fresh : ∀ n, s.next ≤ n → s.dat n = none
  live : ∀ n, s.dat n ≠ none → S n
  links : ∀ n d, s.dat n = some (some d) → In S (s.par n) ∧ In S (s.lft n) ∧ In S (s.rgt n)
  root : PR f S s.root w.root
  size : w.size = s.size
  held : ∃ bs, Slots.Held c (nodeWords K) G f bs w.pool ∧ ∀ n, n ∈ bs ↔ s.dat n ≠ none
  cells : ∀ n d, s.dat n = some (some d) → CellAt K E f w.pool.mem (f n) (s.par n) (s.lft n) (s.rgt n) d

variable {md : Sma.Mode} {c : Sma.Cfg} {G : Slots.Env} {K : Pool.Layout δ} {E : PtrRep} {f : Nat → Nat} {S : Nat → Prop}

theorem nodeWords_pos : 0 < nodeWords K := by unfold nodeWords; omega

theorem PR.null : PR f S none none := ⟨rfl, fun _ h => by cases h⟩

theorem PR.node {n : Nat} (h : S n) : PR f S (some n) (some (f n)) := ⟨rfl, fun _ e => by cases e; exact h⟩

theorem PR.none_iff {p p' : Ptr} (h : PR f S p p') : p = none ↔ p' = none := by
  rw [h.1]; cases p <;> simp

theorem PR.eq_iff (hi : Inj f S) {p p' q q' : Ptr} (h : PR f S p p') (h' : PR f S q q') :
    p = q ↔ p' = q' := by
  rw [h.1, h'.1]
  refine ⟨fun e => e ▸ rfl, fun e => ?_⟩
  cases p with
  | none => cases q with
    | none => rfl
    | some m => cases e
  | some n => cases q with
    | none => cases e
    | some m =>
      have e : f n = f m := Option.some.inj e
      rw [hi n m (h.2 n rfl) (h'.2 m rfl) e]

theorem onPool_returns {p : Prog Sma.St β} {w : PSt} {a : β} {s : Sma.St}
    (h : Returns p w.pool a s) : Returns (onPool p) w a { w with pool := s } := by
  unfold Returns onPool at *
  rw [h]

theorem onPool_faults {p : Prog Sma.St β} {w : PSt} {e : Fault}
    (h : Faults p w.pool e) : Faults (onPool p) w e := by
  unfold Faults onPool at *
  rw [h]

theorem CellAt.congr {mem mem' : Nat → Sma.Cell} {a : Nat} {p l r : Ptr} {d : δ}
    (h : CellAt K E f mem a p l r d) (he : ∀ j, j < nodeWords K → mem' (a + 8 * j) = mem (a + 8 * j)) :
    CellAt K E f mem' a p l r d := by
  have hp := K.pos
  have hw : nodeWords K = 3 + K.words := rfl
  refine ⟨?_, ?_, ?_, ?_⟩
  · rw [← h.par]; exact he 0 (by omega)
  · rw [← h.lft]; exact he 1 (by omega)
  · rw [← h.rgt]; exact he 2 (by omega)
  · intro j hj
    rw [← h.dat j hj]
    have := he (3 + j) (by omega)
    rw [show a + 24 + 8 * j = a + 8 * (3 + j) by omega]
    exact this

section
variable {s s' : St δ} {w : PSt}

theorem R.addr (hc : Sma.Legal c) (h : R c G K E f S s w) {n : Nat} (hn : s.dat n ≠ none) :
    f n ≠ 0 ∧ ∀ j, j < nodeWords K → f n + 8 * j ≠ 0 ∧ c.inPool (f n + 8 * j) := by
  obtain ⟨bs, h1, h2⟩ := h.held
  obtain ⟨g1, g2, g3, _⟩ := h1.inPool hc ((h2 n).2 hn)
  have h0 := hc.obj
  have hb : c.base = c.obj + 4 := rfl
  refine ⟨by omega, fun j hj => ⟨by omega, ?_⟩⟩
  unfold Sma.Cfg.inPool
  omega

/-- A write to a node. -/
theorem R.write (hc : Sma.Legal c) (h : R c G K E f S s w) {n : Nat} (hn : s.dat n ≠ none)
    {o t : Nat} (ht : o + t ≤ nodeWords K) (g : Nat → Sma.Cell) (hn' : s'.dat n ≠ none)
    (hd : ∀ x, x ≠ n → s'.dat x = s.dat x ∧ s'.par x = s.par x ∧ s'.lft x = s.lft x ∧ s'.rgt x = s.rgt x)
    (hnx : s'.next = s.next) (hrt : s'.root = s.root) (hsz : s'.size = s.size)
    (ho : ∀ d, s'.dat n = some (some d) → (In S (s'.par n) ∧ In S (s'.lft n) ∧ In S (s'.rgt n)) ∧
      CellAt K E f (pokeN t w.pool.mem (f n + 8 * o) g) (f n) (s'.par n) (s'.lft n) (s'.rgt n) d) :
    R c G K E f S s' { w with pool := { w.pool with mem := pokeN t w.pool.mem (f n + 8 * o) g } } := by
  obtain ⟨bs, h1, h2⟩ := h.held
  have hin := (h2 n).2 hn
  refine ⟨?_, ?_, ?_, by rw [hrt]; exact h.root, by rw [hsz]; exact h.size, ⟨bs, h1.write hc hin ht g, ?_⟩, ?_⟩
  · intro x hx
    rw [hnx] at hx
    have : x ≠ n := by rintro rfl; exact hn (h.fresh x hx)
    rw [(hd x this).1]; exact h.fresh x hx
  · intro x hx
    by_cases e : x = n
    · rw [e]; exact h.live n hn
    · rw [(hd x e).1] at hx; exact h.live x hx
  · intro x d hx
    by_cases e : x = n
    · subst e; exact (ho d hx).1
    · obtain ⟨e1, e2, e3, e4⟩ := hd x e
      rw [e1] at hx
      rw [e2, e3, e4]; exact h.links x d hx
  · intro x
    rw [h2]
    by_cases e : x = n
    · subst e; simp [hn, hn']
    · rw [(hd x e).1]
  · intro x d hx
    by_cases e : x = n
    · subst e; exact (ho d hx).2
    · obtain ⟨e1, e2, e3, e4⟩ := hd x e
      rw [e1] at hx
      rw [e2, e3, e4]
      refine (h.cells x d hx).congr fun j hj => ?_
      exact h1.write_other hc hin ((h2 x).2 (by rw [hx]; simp)) e ht g hj

end

/-! ## Simulation -/

/-- Whenever `p` returns on nodes with identifiers, `q` returns on the bytes, in a related state and with
a related result.  With `ro`, they leave everything as it is. -/
def Sim (c : Sma.Cfg) (G : Slots.Env) (K : Pool.Layout δ) (E : PtrRep) (f : Nat → Nat) (S : Nat → Prop) (ro : Prop)
    (p : Prog (St δ) β) (q : Prog PSt γ) (A : β → γ → Prop) : Prop :=
  ∀ s w, R c G K E f S s w → ∀ a s', Returns p s a s' →
    ∃ a' w', Returns q w a' w' ∧ R c G K E f S s' w' ∧ A a a' ∧ (ro → s' = s ∧ w' = w)

section
variable {ro : Prop}

theorem Sim.bind {p : Prog (St δ) β} {q : Prog PSt γ} {A : β → γ → Prop}
    {g : β → Prog (St δ) β'} {h : γ → Prog PSt γ'} {B : β' → γ' → Prop}
    (h1 : Sim c G K E f S ro p q A) (h2 : ∀ a a', A a a' → Sim c G K E f S ro (g a) (h a') B) :
    Sim c G K E f S ro (p >>= g) (q >>= h) B := by
  intro s w hR b s2 hr
  obtain ⟨a, s1, r1, r2⟩ := returns_bind hr
  obtain ⟨a', w1, g1, g2, g3, g4⟩ := h1 s w hR a s1 r1
  obtain ⟨b', w2, e1, e2, e3, e4⟩ := h2 a a' g3 s1 w1 g2 b s2 r2
  refine ⟨b', w2, ?_, e2, e3, fun hro => ⟨(e4 hro).1.trans (g4 hro).1, (e4 hro).2.trans (g4 hro).2⟩⟩
  unfold Returns
  rw [bind_returns g1]
  exact e1

theorem Sim.pure {a : β} {a' : γ} {A : β → γ → Prop} (h : A a a') :
    Sim c G K E f S ro (Pure.pure a) (Pure.pure a') A := by
  intro s w hR b s' hr
  obtain ⟨rfl, rfl⟩ := returns_pure hr
  exact ⟨a', w, rfl, hR, h, fun _ => ⟨rfl, rfl⟩⟩

theorem Sim.mono {ro' : Prop} {p : Prog (St δ) β} {q : Prog PSt γ} {A B : β → γ → Prop}
    (h : Sim c G K E f S ro p q A) (hro : ro' → ro) (hA : ∀ a a', A a a' → B a a') : Sim c G K E f S ro' p q B := by
  intro s w hR a s' hr
  obtain ⟨a', w', g1, g2, g3, g4⟩ := h s w hR a s' hr
  exact ⟨a', w', g1, g2, hA _ _ g3, fun h => g4 (hro h)⟩

theorem Sim.ite {Q Q' : Prop} [Decidable Q] [Decidable Q'] {p p2 : Prog (St δ) β}
    {q q2 : Prog PSt γ} {A : β → γ → Prop} (he : Q ↔ Q')
    (h1 : Q → Sim c G K E f S ro p q A) (h2 : ¬ Q → Sim c G K E f S ro p2 q2 A) :
    Sim c G K E f S ro (if Q then p else p2) (if Q' then q else q2) A := by
  by_cases hq : Q
  · rw [if_pos hq, if_pos (he.1 hq)]; exact h1 hq
  · rw [if_neg hq, if_neg (fun h => hq (he.2 h))]; exact h2 hq

theorem Sim.when {Q Q' : Prop} [Decidable Q] [Decidable Q'] {p : Prog (St δ) Unit} {q : Prog PSt Unit}
    (he : Q ↔ Q') (h1 : Q → Sim c G K E f S ro p q Eq) :
    Sim c G K E f S ro (Prog.when Q p) (Prog.when Q' q) Eq :=
  Sim.ite he h1 fun _ => Sim.pure rfl

theorem Sim.fail {e e' : Fault} {A : β → γ → Prop} : Sim c G K E f S ro (Prog.fail e) (Prog.fail e') A := by
  intro s w _ a s' hr; cases hr

/-- Simulation can be established by fixpoint induction. -/
theorem adm_sim {κ : Sort _} (q : κ → Prog PSt γ) (Rel : κ → Prop) (A : κ → β → γ → Prop) :
    admissible fun g : Prog (St δ) β => ∀ k, Rel k → Sim c G K E f S ro g (q k) (A k) := by
  have : (fun g : Prog (St δ) β => ∀ k, Rel k → Sim c G K E f S ro g (q k) (A k)) =
      fun g => ∀ s, wlp g (fun a s' => ∀ k, Rel k → ∀ w, R c G K E f S s w →
        ∃ a' w', Returns (q k) w a' w' ∧ R c G K E f S s' w' ∧ A k a a' ∧ (ro → s' = s ∧ w' = w)) s := by
    funext g
    refine propext ⟨fun h s a s' hr k hk w hR => h k hk s w hR a s' hr, fun h k hk s w hR a s' hr =>
      h s a s' hr k hk w hR⟩
  rw [this]
  refine admissible_pi_apply (α := St δ) (β := fun _ => Option (Except Fault (β × St δ)))
    (fun s x => ∀ a t, x = some (.ok (a, t)) → ∀ k, Rel k → ∀ w, R c G K E f S s w →
        ∃ a' w', Returns (q k) w a' w' ∧ R c G K E f S t w' ∧ A k a a' ∧ (ro → t = s ∧ w' = w)) (fun s => ?_)
  exact admissible_flatOrder _ (fun _ _ h => by cases h)

/-- For a function of one pointer. -/
theorem adm_ptr (q : Ptr → Prog PSt γ) (A : β → γ → Prop) :
    admissible fun X : Ptr → Prog (St δ) β => ∀ p p', PR f S p p' → Sim c G K E f S ro (X p) (q p') A :=
  admissible_pi_apply (fun p (g : Prog (St δ) β) => ∀ p', PR f S p p' → Sim c G K E f S ro g (q p') A)
    fun p => adm_sim q (PR f S p) fun _ => A

/-- Reading something. -/
theorem Sim.read {p : Prog (St δ) β} {q : Prog PSt γ} {A : β → γ → Prop}
    (h : ∀ s w, R c G K E f S s w → ∀ a s', Returns p s a s' → s' = s ∧ ∃ a', Returns q w a' w ∧ A a a') :
    Sim c G K E f S ro p q A := by
  intro s w hR a s' hr
  obtain ⟨rfl, a', h1, h2⟩ := h s w hR a s' hr
  exact ⟨a', w, h1, hR, h2, fun _ => ⟨rfl, rfl⟩⟩

end

/-! ## The parts -/

section
variable {s : St δ} {w : PSt}

theorem returns_touch {p : Ptr} {s' : St δ} {n : Nat} (hr : Returns (Tree.touch p) s n s') :
    s' = s ∧ p = some n ∧ ∃ d, s.dat n = some (some d) := by
  unfold Returns Tree.touch at hr
  split at hr
  · cases hr
  · split at hr
    · cases hr
    · cases hr
    · rename_i e; cases hr; exact ⟨rfl, rfl, _, e⟩

theorem returns_getData {p : Ptr} {s' : St δ} {d : δ} (hr : Returns (Tree.getData p) s d s') :
    s' = s ∧ ∃ n, p = some n ∧ s.dat n = some (some d) := by
  unfold Returns Tree.getData at hr
  split at hr
  · cases hr
  · split at hr
    · cases hr
    · cases hr
    · rename_i e; cases hr; exact ⟨rfl, _, rfl, e⟩

theorem returns_modify {σ : Type} {g : σ → σ} {s t : σ} (h : Returns (Prog.modify g) s () t) : t = g s := by
  cases h; rfl

theorem touchWord_ok (hc : Sma.Legal c) (h : R c G K E f S s w) {n : Nat} (hn : s.dat n ≠ none)
    {j : Nat} (hj : j < nodeWords K) (t : Sma.St) : Returns (touchWord c (f n + 8 * j)) t () t := by
  obtain ⟨g1, g2⟩ := (h.addr hc hn).2 j hj
  unfold Returns touchWord
  rw [bind_returns (check_ok t g1)]
  exact check_ok t g2

theorem touchObj_ok (hc : Sma.Legal c) (h : R c G K E f S s w) {n : Nat} (hn : s.dat n ≠ none)
    (t : Sma.St) : Returns (Pool.touchObj c K (f n + 24)) t () t := by
  have hp := K.pos
  have hg := (h.addr hc hn).2
  have hw : nodeWords K = 3 + K.words := rfl
  unfold Returns Pool.touchObj
  rw [bind_returns (check_ok t (hg 3 (by omega)).1)]
  refine check_ok t fun j hj => ?_
  have := (hg (3 + j) (by omega)).2
  rw [show f n + 24 + 8 * j = f n + 8 * (3 + j) by omega]
  exact this

theorem savePtr_ok (hc : Sma.Legal c) (h : R c G K E f S s w) {n : Nat} (hn : s.dat n ≠ none)
    {j : Nat} (hj : j < nodeWords K) (t : Sma.St) (p : Ptr) :
    Returns (savePtr c E (f n + 8 * j) p) t () { t with mem := pokeN 1 t.mem (f n + 8 * j) fun _ => E.enc p } := by
  unfold Returns savePtr
  rw [bind_returns (touchWord_ok hc h hn hj t), ← Slots.upd_eq]
  rfl

theorem saveObj_ok (hc : Sma.Legal c) (h : R c G K E f S s w) {n : Nat} (hn : s.dat n ≠ none)
    (t : Sma.St) (g : Nat → Sma.Cell) :
    Returns (Pool.save c K (f n + 24) g) t () { t with mem := pokeN K.words t.mem (f n + 8 * 3) g } := by
  unfold Returns Pool.save
  rw [bind_returns (touchObj_ok hc h hn t)]
  rfl

theorem loadPtr_ok (hc : Sma.Legal c) (h : R c G K E f S s w) {n : Nat} (hn : s.dat n ≠ none)
    {j : Nat} (hj : j < nodeWords K) {p : Ptr} (hp : w.pool.mem (f n + 8 * j) = E.enc p) :
    Returns (loadPtr c E (f n + 8 * j)) w.pool p w.pool := by
  unfold Returns loadPtr
  rw [bind_returns (touchWord_ok hc h hn hj _), bind_returns (show Returns Prog.get w.pool w.pool w.pool from rfl),
    hp, E.dec_enc]
  rfl

end

section
variable {ro : Prop} {p p' q q' : Ptr}

theorem touch_sim (hc : Sma.Legal c) (hp : PR f S p p') :
    Sim c G K E f S ro (Tree.touch p) ((poolTree md c K E).touch p') fun n n' => n' = f n ∧ S n := by
  refine Sim.read fun s w h n s' hr => ?_
  obtain ⟨rfl, rfl, d, hd⟩ := returns_touch hr
  obtain ⟨rfl, hs⟩ := hp
  have hn : s'.dat n ≠ none := by rw [hd]; simp
  refine ⟨rfl, f n, onPool_returns ?_, rfl, hs n rfl⟩
  exact bind_returns (touchWord_ok hc h hn (j := 0) nodeWords_pos w.pool)

theorem getParent_sim (hc : Sma.Legal c) (hp : PR f S p p') :
    Sim c G K E f S ro (Tree.getParent p) ((poolTree md c K E).getParent p') (PR f S) := by
  refine Sim.read fun s w h q s' hr => ?_
  obtain ⟨n, s1, r1, r2⟩ := returns_bind hr
  obtain ⟨rfl, rfl, d, hd⟩ := returns_touch r1
  cases r2
  obtain ⟨rfl, hs⟩ := hp
  refine ⟨rfl, _, onPool_returns (loadPtr_ok hc h (by rw [hd]; simp) (j := 0) nodeWords_pos (h.cells n d hd).par),
    rfl, (h.links n d hd).1⟩

theorem getLeft_sim (hc : Sma.Legal c) (hp : PR f S p p') :
    Sim c G K E f S ro (Tree.getLeft p) ((poolTree md c K E).getLeft p') (PR f S) := by
  refine Sim.read fun s w h q s' hr => ?_
  obtain ⟨n, s1, r1, r2⟩ := returns_bind hr
  obtain ⟨rfl, rfl, d, hd⟩ := returns_touch r1
  cases r2
  obtain ⟨rfl, hs⟩ := hp
  refine ⟨rfl, _, onPool_returns (loadPtr_ok hc h (by rw [hd]; simp) (j := 1) (by unfold nodeWords; omega)
    (h.cells n d hd).lft), rfl, (h.links n d hd).2.1⟩

theorem getRight_sim (hc : Sma.Legal c) (hp : PR f S p p') :
    Sim c G K E f S ro (Tree.getRight p) ((poolTree md c K E).getRight p') (PR f S) := by
  refine Sim.read fun s w h q s' hr => ?_
  obtain ⟨n, s1, r1, r2⟩ := returns_bind hr
  obtain ⟨rfl, rfl, d, hd⟩ := returns_touch r1
  cases r2
  obtain ⟨rfl, hs⟩ := hp
  refine ⟨rfl, _, onPool_returns (loadPtr_ok hc h (by rw [hd]; simp) (j := 2) (by unfold nodeWords; omega)
    (h.cells n d hd).rgt), rfl, (h.links n d hd).2.2⟩

theorem getData_sim (hc : Sma.Legal c) (hp : PR f S p p') :
    Sim c G K E f S ro (Tree.getData p) ((poolTree md c K E).getData p') Eq := by
  refine Sim.read fun s w h d s' hr => ?_
  obtain ⟨rfl, n, rfl, hd⟩ := returns_getData hr
  obtain ⟨rfl, hs⟩ := hp
  refine ⟨rfl, d, onPool_returns ?_, rfl⟩
  unfold Returns Pool.load
  rw [bind_returns (touchObj_ok hc h (by rw [hd]; simp) _),
    bind_returns (show Returns Prog.get w.pool w.pool w.pool from rfl),
    K.dec_enc d _ (fun j hj => (h.cells n d hd).dat j hj)]
  rfl

theorem getRoot_sim : Sim c G K E f S ro Tree.getRoot (poolTree md c K E).getRoot (PR f S) := by
  refine Sim.read fun s w h q s' hr => ?_
  cases hr
  exact ⟨rfl, _, rfl, h.root⟩

theorem getSize_sim : Sim c G K E f S ro Tree.getSize (poolTree md c K E).getSize Eq := by
  refine Sim.read fun s w h q s' hr => ?_
  cases hr
  exact ⟨rfl, _, rfl, h.size.symm⟩

theorem setRoot_sim (hp : PR f S p p') :
    Sim c G K E f S False (Prog.modify fun s => { s with root := p }) ((poolTree md c K E).setRoot p') Eq := by
  intro s w h a s' hr
  cases hr
  exact ⟨(), { w with root := p' }, rfl, ⟨h.fresh, h.live, h.links, hp, h.size, h.held, h.cells⟩, rfl, False.elim⟩

theorem setSize_sim (n : Nat) :
    Sim c G K E f S False (Tree.setSize n) ((poolTree md c K E).setSize n) Eq := by
  intro s w h a s' hr
  cases hr
  exact ⟨(), { w with size := n }, rfl, ⟨h.fresh, h.live, h.links, h.root, rfl, h.held, h.cells⟩, rfl, False.elim⟩

theorem upd_other {γ : Type} (g : Nat → γ) (n : Nat) (v : γ) {x : Nat} (h : x ≠ n) : Tree.upd g n v x = g x :=
  if_neg h

theorem upd_at {γ : Type} (g : Nat → γ) (n : Nat) (v : γ) : Tree.upd g n v n = v := if_pos rfl

theorem setParent_sim (hc : Sma.Legal c) (hp : PR f S p p') (hq : PR f S q q') :
    Sim c G K E f S False (Tree.setParent p q) ((poolTree md c K E).setParent p' q') Eq := by
  intro s w h a s' hr
  obtain ⟨n, s1, r1, r2⟩ := returns_bind hr
  obtain ⟨rfl, rfl, d, hd⟩ := returns_touch r1
  cases r2
  obtain ⟨rfl, hs⟩ := hp
  obtain ⟨rfl, hq⟩ := hq
  have hn : s1.dat n ≠ none := by rw [hd]; simp
  have hw : nodeWords K = 3 + K.words := rfl
  refine ⟨(), _, onPool_returns (savePtr_ok hc h hn (j := 0) nodeWords_pos w.pool _), ?_, rfl, False.elim⟩
  refine h.write hc hn (by omega) _ hn (fun x hx => ⟨rfl, upd_other _ _ _ hx, rfl, rfl⟩) rfl rfl rfl ?_
  intro d hd
  have hcell := h.cells n d hd
  have hl := h.links n d hd
  simp only [upd_at]
  refine ⟨⟨hq, hl.2⟩, ?_, ?_, ?_, ?_⟩
  · exact Slots.pokeN_in (j := 0) (by omega)
  · rw [Slots.pokeN_other (by intros; omega)]; exact hcell.lft
  · rw [Slots.pokeN_other (by intros; omega)]; exact hcell.rgt
  · intro j hj
    rw [Slots.pokeN_other (by intros; omega)]; exact hcell.dat j hj

theorem setLeft_sim (hc : Sma.Legal c) (hp : PR f S p p') (hq : PR f S q q') :
    Sim c G K E f S False (Tree.setLeft p q) ((poolTree md c K E).setLeft p' q') Eq := by
  intro s w h a s' hr
  obtain ⟨n, s1, r1, r2⟩ := returns_bind hr
  obtain ⟨rfl, rfl, d, hd⟩ := returns_touch r1
  cases r2
  obtain ⟨rfl, hs⟩ := hp
  obtain ⟨rfl, hq⟩ := hq
  have hn : s1.dat n ≠ none := by rw [hd]; simp
  have hw : nodeWords K = 3 + K.words := rfl
  refine ⟨(), _, onPool_returns (savePtr_ok hc h hn (j := 1) (by omega) w.pool _), ?_, rfl, False.elim⟩
  refine h.write hc hn (by omega) _ hn (fun x hx => ⟨rfl, rfl, upd_other _ _ _ hx, rfl⟩) rfl rfl rfl ?_
  intro d hd
  have hcell := h.cells n d hd
  have hl := h.links n d hd
  simp only [upd_at]
  refine ⟨⟨hl.1, hq, hl.2.2⟩, ?_, ?_, ?_, ?_⟩
  · rw [Slots.pokeN_other (by intros; omega)]; exact hcell.par
  · exact Slots.pokeN_in (j := 0) (by omega)
  · rw [Slots.pokeN_other (by intros; omega)]; exact hcell.rgt
  · intro j hj
    rw [Slots.pokeN_other (by intros; omega)]; exact hcell.dat j hj

theorem setRight_sim (hc : Sma.Legal c) (hp : PR f S p p') (hq : PR f S q q') :
    Sim c G K E f S False (Tree.setRight p q) ((poolTree md c K E).setRight p' q') Eq := by
  intro s w h a s' hr
  obtain ⟨n, s1, r1, r2⟩ := returns_bind hr
  obtain ⟨rfl, rfl, d, hd⟩ := returns_touch r1
  cases r2
  obtain ⟨rfl, hs⟩ := hp
  obtain ⟨rfl, hq⟩ := hq
  have hn : s1.dat n ≠ none := by rw [hd]; simp
  have hw : nodeWords K = 3 + K.words := rfl
  refine ⟨(), _, onPool_returns (savePtr_ok hc h hn (j := 2) (by omega) w.pool _), ?_, rfl, False.elim⟩
  refine h.write hc hn (by omega) _ hn (fun x hx => ⟨rfl, rfl, rfl, upd_other _ _ _ hx⟩) rfl rfl rfl ?_
  intro d hd
  have hcell := h.cells n d hd
  have hl := h.links n d hd
  simp only [upd_at]
  refine ⟨⟨hl.1, hl.2.1, hq⟩, ?_, ?_, ?_, ?_⟩
  · rw [Slots.pokeN_other (by intros; omega)]; exact hcell.par
  · rw [Slots.pokeN_other (by intros; omega)]; exact hcell.lft
  · exact Slots.pokeN_in (j := 0) (by omega)
  · intro j hj
    rw [Slots.pokeN_other (by intros; omega)]; exact hcell.dat j hj

theorem setData_sim (hc : Sma.Legal c) (hp : PR f S p p') (y : δ) :
    Sim c G K E f S False (Tree.setData p y) ((poolTree md c K E).setData p' y) Eq := by
  intro s w h a s' hr
  obtain ⟨n, s1, r1, r2⟩ := returns_bind hr
  obtain ⟨rfl, rfl, d, hd⟩ := returns_touch r1
  cases r2
  obtain ⟨rfl, hs⟩ := hp
  have hn : s1.dat n ≠ none := by rw [hd]; simp
  refine ⟨(), _, onPool_returns (saveObj_ok hc h hn w.pool _), ?_, rfl, False.elim⟩
  refine h.write hc hn (Nat.le_refl _) _ (by simp [upd_at])
    (fun x hx => ⟨upd_other _ _ _ hx, rfl, rfl, rfl⟩) rfl rfl rfl ?_
  intro e he
  simp only [upd_at] at he
  cases he
  have hcell := h.cells n d hd
  have hl := h.links n d hd
  refine ⟨hl, ?_, ?_, ?_, ?_⟩
  · rw [Slots.pokeN_other (by intros; omega)]; exact hcell.par
  · rw [Slots.pokeN_other (by intros; omega)]; exact hcell.lft
  · rw [Slots.pokeN_other (by intros; omega)]; exact hcell.rgt
  · intro j hj
    exact Slots.pokeN_in hj

theorem destroy_sim (hc : Sma.Legal c) (hp : PR f S p p') :
    Sim c G K E f S False (Tree.destroyNode p) ((poolTree md c K E).destroy p') fun _ _ => p ≠ none := by
  intro s w h a s' hr
  have hr' : ∃ n d, p = some n ∧ s.dat n = some (some d) ∧ s' = { s with dat := Tree.upd s.dat n (some none) } := by
    unfold Returns Tree.destroyNode at hr
    split at hr
    · cases hr
    · split at hr
      · cases hr
      · cases hr
      · rename_i e; cases hr; exact ⟨_, _, rfl, e, rfl⟩
  obtain ⟨n, d, rfl, hd, rfl⟩ := hr'
  obtain ⟨rfl, hs⟩ := hp
  have hn : s.dat n ≠ none := by rw [hd]; simp
  let g := K.fin fun j => w.pool.mem (f n + 24 + 8 * j)
  refine ⟨(), { w with pool := { w.pool with mem := pokeN K.words w.pool.mem (f n + 8 * 3) g } },
    onPool_returns ?_, ?_, (by simp), False.elim⟩
  · unfold Returns
    rw [bind_returns (check_ok _ (h.addr hc hn).1), bind_returns (touchObj_ok hc h hn _),
      bind_returns (show Returns Prog.get w.pool w.pool w.pool from rfl)]
    refine (bind_returns (check_ok _ (Or.inr ?_))).trans (saveObj_ok hc h hn _ _)
    rw [K.dec_enc d _ (fun j hj => (h.cells n d hd).dat j hj)]
    rfl
  · refine h.write hc hn (Nat.le_refl _) _ (by simp [upd_at])
      (fun x hx => ⟨upd_other _ _ _ hx, rfl, rfl, rfl⟩) rfl rfl rfl ?_
    intro e he
    simp only [upd_at] at he
    cases he

theorem free_sim (hc : Sma.Legal c) (hfit : 8 * nodeWords K + 8 < 2 ^ 31) (hp : PR f S p p') (h0 : p ≠ none) :
    Sim c G K E f S False (Tree.freeNode p) ((poolTree md c K E).free p') Eq := by
  intro s w h a s' hr
  have hr' : ∃ n o, p = some n ∧ s.dat n = some o ∧ s' = { s with
      dat := Tree.upd s.dat n none, lost := s.lost + (if o.isSome then 1 else 0) } := by
    unfold Returns Tree.freeNode at hr
    split at hr
    · exact absurd rfl h0
    · split at hr
      · cases hr
      · rename_i o e; cases hr; exact ⟨_, o, rfl, e, rfl⟩
  obtain ⟨n, o, rfl, hd, rfl⟩ := hr'
  obtain ⟨rfl, hs⟩ := hp
  have hn : s.dat n ≠ none := by rw [hd]; simp
  obtain ⟨bs, h1, h2⟩ := h.held
  obtain ⟨t, g1, g2, g3⟩ := h1.free (md := md) hc hfit ((h2 n).2 hn)
  refine ⟨(), { w with pool := t }, onPool_returns g1, ?_, rfl, False.elim⟩
  have hdat : ∀ x, Tree.upd s.dat n none x = if x = n then none else s.dat x := fun _ => rfl
  refine ⟨?_, ?_, ?_, h.root, h.size, ⟨_, g2, ?_⟩, ?_⟩
  · intro x hx
    show Tree.upd s.dat n none x = none
    rw [hdat]; split
    · rfl
    · exact h.fresh x hx
  · intro x hx
    have hx : Tree.upd s.dat n none x ≠ none := hx
    rw [hdat] at hx; split at hx
    · exact absurd rfl hx
    · exact h.live x hx
  · intro x d hx
    have hx : Tree.upd s.dat n none x = _ := hx
    rw [hdat] at hx; split at hx
    · cases hx
    · exact h.links x d hx
  · intro x
    show _ ↔ Tree.upd s.dat n none x ≠ none
    rw [hdat, h1.nodup.mem_erase_iff, h2]
    by_cases e : x = n <;> simp [e]
  · intro x d hx
    have hx : Tree.upd s.dat n none x = _ := hx
    rw [hdat] at hx
    by_cases e : x = n
    · rw [if_pos e] at hx; cases hx
    · rw [if_neg e] at hx
      exact (h.cells x d hx).congr fun j hj => g3 x ((h2 x).2 (by rw [hx]; simp)) e j hj

theorem construct_sim (hc : Sma.Legal c) {n : Nat} (d : δ) :
    Sim c G K E f S False (Tree.constructNode n d) ((poolTree md c K E).construct (f n) d) Eq := by
  intro s w h a s' hr
  have hr' : ∃ o, s.dat n = some o ∧ s' = { s with
      dat := Tree.upd s.dat n (some (some d))
      par := Tree.upd s.par n none
      lft := Tree.upd s.lft n none
      rgt := Tree.upd s.rgt n none
      lost := s.lost + (if o.isSome then 1 else 0) } := by
    unfold Returns Tree.constructNode at hr
    split at hr
    · cases hr
    · rename_i o e; cases hr; exact ⟨o, e, rfl⟩
  obtain ⟨o, hd, rfl⟩ := hr'
  have hn : s.dat n ≠ none := by rw [hd]; simp
  have hw : nodeWords K = 3 + K.words := rfl
  have hkp := K.pos
  let s1 : St δ := { s with dat := Tree.upd s.dat n (some none) }
  have hn1 : s1.dat n ≠ none := by show Tree.upd s.dat n (some none) n ≠ none; rw [upd_at]; simp
  have raw : ∀ {P : δ → Prop} (e : δ), s1.dat n = some (some e) → P e := by
    intro P e he
    have he : Tree.upd s.dat n (some none) n = _ := he
    rw [upd_at] at he; cases he
  have R0 := h.write (s' := s1) hc hn (o := 0) (t := 1) (by omega) (fun _ => E.enc none) hn1
    (fun x hx => ⟨upd_other _ _ _ hx, rfl, rfl, rfl⟩) rfl rfl rfl (fun e => raw (P := fun _ => _) e)
  have R1 := R0.write (s' := s1) hc hn1 (o := 1) (t := 1) (by omega) (fun _ => E.enc none) hn1
    (fun x hx => ⟨rfl, rfl, rfl, rfl⟩) rfl rfl rfl (fun e => raw (P := fun _ => _) e)
  have R2 := R1.write (s' := s1) hc hn1 (o := 2) (t := 1) (by omega) (fun _ => E.enc none) hn1
    (fun x hx => ⟨rfl, rfl, rfl, rfl⟩) rfl rfl rfl (fun e => raw (P := fun _ => _) e)
  have R3 := R2.write (s' := { s with
      dat := Tree.upd s.dat n (some (some d))
      par := Tree.upd s.par n none
      lft := Tree.upd s.lft n none
      rgt := Tree.upd s.rgt n none
      lost := s.lost + (if o.isSome then 1 else 0) }) hc hn1 (o := 3) (t := K.words) (by omega) (K.enc d)
    (by simp [upd_at])
    (fun x hx => ⟨(upd_other _ _ _ hx).trans (upd_other _ _ _ hx).symm, upd_other _ _ _ hx, upd_other _ _ _ hx,
      upd_other _ _ _ hx⟩) rfl rfl rfl (by
      intro e he
      simp only [upd_at] at he ⊢
      cases he
      have h0 : In S none := fun _ e => by cases e
      refine ⟨⟨h0, h0, h0⟩, ?_, ?_, ?_, ?_⟩
      · rw [Slots.pokeN_other (by intros; omega), Slots.pokeN_other (by intros; omega),
          Slots.pokeN_other (by intros; omega)]
        exact Slots.pokeN_in (j := 0) (by omega)
      · rw [Slots.pokeN_other (by intros; omega), Slots.pokeN_other (by intros; omega)]
        exact Slots.pokeN_in (j := 0) (by omega)
      · rw [Slots.pokeN_other (by intros; omega)]
        exact Slots.pokeN_in (j := 0) (by omega)
      · intro j hj
        exact Slots.pokeN_in hj)
  refine ⟨(), _, onPool_returns ?_, R3, rfl, False.elim⟩
  unfold Returns
  rw [bind_returns (check_ok _ (h.addr hc hn).1)]
  refine (bind_returns (savePtr_ok hc h hn (j := 0) (by omega) w.pool _)).trans ?_
  refine (bind_returns (savePtr_ok hc h hn (j := 1) (by omega) _ _)).trans ?_
  refine (bind_returns (savePtr_ok hc h hn (j := 2) (by omega) _ _)).trans ?_
  exact saveObj_ok hc h hn _ _

end

/-- A new node.  If the pool is full of nodes, the port crashes and the allocator itself returns null.
Otherwise the addresses of the other nodes stay. -/
theorem alloc_ok (hc : Sma.Legal c) (hfit : 8 * nodeWords K + 8 < 2 ^ 31) {s : St δ} {w : PSt}
    (h : R c G K E f S s w) (hS : ∀ n, S n → s.dat n ≠ none) :
    (((G.solo → ∃ bs : List Nat, bs.Nodup ∧ (∀ n, n ∈ bs ↔ s.dat n ≠ none) ∧ c.M / (8 * nodeWords K) ≤ bs.length) ∧
      (md = .port → Pool.NoRoom c w.pool (Slots.size (nodeWords K)))) ∧
      (Faults (poolTree md c K E).alloc w .crash ∨ Returns (poolTree md c K E).alloc w 0 w)) ∨
    (∃ f' w', Returns (poolTree md c K E).alloc w (f' s.next) w' ∧ (∀ n, S n → f' n = f n) ∧
      Inj f' (fun n => S n ∨ n = s.next) ∧
      R c G K E f' (fun n => S n ∨ n = s.next)
        { s with dat := Tree.upd s.dat s.next (some none), next := s.next + 1 } w') := by
  obtain ⟨bs, h1, h2⟩ := h.held
  have hn0 : s.next ∉ bs := fun hin => (h2 _).1 hin (h.fresh _ (Nat.le_refl _))
  rcases h1.alloc (md := md) hc nodeWords_pos hfit hn0 with ⟨g1, g0, g2⟩ | ⟨a, t, g1, ha, g2, g3⟩
  · refine Or.inl ⟨⟨fun hG => ⟨bs, h1.nodup, h2, g1 hG⟩, g0⟩, ?_⟩
    rcases g2 with g2 | g2
    · exact Or.inl (onPool_faults g2)
    · exact Or.inr (onPool_returns g2)
  right
  refine ⟨place f s.next a, { w with pool := t }, ?_, ?_⟩
  · have : place f s.next a s.next = a := by unfold place; rw [if_pos rfl]
    rw [this]; exact onPool_returns g1
  have hne : ∀ n, S n → n ≠ s.next := fun n hn e => hS n hn (h.fresh n (by omega))
  have hsame : ∀ n, S n → place f s.next a n = f n := fun n hn => by
    unfold place; rw [if_neg (hne n hn)]
  have hmap : ∀ p : Ptr, In S p → p.map (place f s.next a) = p.map f := by
    intro p hp
    cases p with
    | none => rfl
    | some n => exact congrArg some (hsame n (hp n rfl))
  have hin : ∀ p : Ptr, In S p → In (fun n => S n ∨ n = s.next) p := fun p hp n e => Or.inl (hp n e)
  have hmem : ∀ n, (S n ∨ n = s.next) → n ∈ s.next :: bs := by
    rintro n (hn | rfl)
    · exact List.mem_cons_of_mem _ ((h2 n).2 (hS n hn))
    · exact List.mem_cons_self ..
  have hdat : ∀ x, Tree.upd s.dat s.next (some none) x = if x = s.next then some none else s.dat x := fun _ => rfl
  refine ⟨hsame, fun n n' hn hn' e => g2.inj hc (hmem n hn) (hmem n' hn') e, ?_, ?_, ?_, ?_, h.size, ⟨_, g2, ?_⟩, ?_⟩
  · intro x hx
    show Tree.upd s.dat s.next (some none) x = none
    have hx : s.next + 1 ≤ x := hx
    rw [hdat, if_neg (by omega)]; exact h.fresh x (by omega)
  · intro x hx
    have hx : Tree.upd s.dat s.next (some none) x ≠ none := hx
    rw [hdat] at hx; split at hx
    · exact Or.inr ‹_›
    · exact Or.inl (h.live x hx)
  · intro x d hx
    have hx : Tree.upd s.dat s.next (some none) x = _ := hx
    rw [hdat] at hx; split at hx
    · cases hx
    · obtain ⟨l1, l2, l3⟩ := h.links x d hx
      exact ⟨hin _ l1, hin _ l2, hin _ l3⟩
  · exact ⟨by rw [h.root.1]; exact (hmap _ h.root.2).symm, hin _ h.root.2⟩
  · intro x
    show _ ↔ Tree.upd s.dat s.next (some none) x ≠ none
    rw [hdat, List.mem_cons, h2]
    by_cases e : x = s.next <;> simp [e]
  · intro x d hx
    have hx : Tree.upd s.dat s.next (some none) x = _ := hx
    rw [hdat] at hx
    by_cases e : x = s.next
    · rw [if_pos e] at hx; cases hx
    · rw [if_neg e] at hx
      have hl : s.dat x ≠ none := by rw [hx]; simp
      have hcell := (h.cells x d hx).congr (mem' := t.mem) (g3 x ((h2 x).2 hl))
      obtain ⟨l1, l2, l3⟩ := h.links x d hx
      rw [hsame x (h.live x hl)]
      exact ⟨by rw [hmap _ l1]; exact hcell.par, by rw [hmap _ l2]; exact hcell.lft, by rw [hmap _ l3]; exact hcell.rgt,
        hcell.dat⟩

end Verif.TPool
