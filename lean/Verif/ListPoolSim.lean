import Verif.ListPool
import Verif.PoolSlots
import Verif.Partial

/-! Helper lemmas: the functions of the lists on the bytes of the static pool do what they do on
nodes with identifiers, as long as there is memory. -/

namespace Verif.LPool

open Prog Verif.LL Lean.Order
open Verif.Pool (returns_bind returns_pure returns_check check_ok pokeN place)

variable {α : Type}

/-! ## The functions over an arbitrary memory are those of `Verif.LinkedList` -/

/-- Nodes with identifiers (`Verif.LinkedList`). -/
def memNodes : NodeOps (Mem α) α where
  getHead k := LL.get (.head k)
  getNext := LL.getNext
  getPrev := LL.getPrev
  getData := LL.getData
  setNext := LL.setNext
  setPrev := LL.setPrev
  setData := LL.setData
  alloc := LL.allocNode
  construct := LL.constructNode
  destroy := LL.destroyNode
  free := LL.freeNode
  getSize := LL.getSize
  setSize := LL.setSize
  getTail := LL.getTail
  setTail := LL.setTail
  makeHead k h := modify fun m =>
    { m with cell := fun x => if x = .head k then some (some h) else m.cell x }
  putHead k h := modify fun m => m.upd (.head k) fun _ => h
  dropHead k := modify fun m => { m with cell := fun x => if x = .head k then none else m.cell x }

theorem baseClear_mem (kd : Kind) (k : Nat) : baseClear (memNodes (α := α)) kd k = LL.baseClear kd k := by
  delta baseClear LL.baseClear; rfl

theorem iterateFrom_mem (k : Nat) (p : Ptr) :
    iterateFrom (memNodes (α := α)) k p = LL.iterateFrom k p := by
  delta iterateFrom LL.iterateFrom; rfl

theorem advance_mem (i : Nat) (p : Ptr) : advance (memNodes (α := α)) i p = LL.advance i p := by
  induction i generalizing p with
  | zero => rfl
  | succ i ih => exact congrArg (LL.getNext p >>= ·) (funext fun q => ih q)

theorem nth_mem (k i : Nat) : nth (memNodes (α := α)) k i = LL.nth k i :=
  congrArg (LL.getNext (.head k) >>= ·) (funext fun q => advance_mem i q)

theorem iterate_mem (k : Nat) : iterate (memNodes (α := α)) k = LL.iterate k :=
  congrArg (LL.getNext (.head k) >>= ·) (funext fun q => iterateFrom_mem k q)

theorem getArg_mem (a : Arg α) : getArg memNodes a = a.get := by cases a <;> rfl

theorem newNode_mem (k : Nat) (a : Arg α) : newNode memNodes k a = LL.newNode k a := by
  unfold newNode
  rw [getArg_mem]
  rfl

theorem basePushFront_mem (kd : Kind) (k : Nat) (a : Arg α) :
    basePushFront memNodes kd k a = LL.basePushFront kd k a := by
  unfold basePushFront
  rw [newNode_mem]
  cases kd <;> rfl

theorem basePopFront_mem (kd : Kind) (k : Nat) :
    basePopFront (memNodes (α := α)) kd k = LL.basePopFront kd k := by cases kd <;> rfl

theorem baseNew_mem (kd : Kind) (d : Option α) (k : Nat) :
    baseNew memNodes kd d k = LL.baseNew kd d k := by cases kd <;> rfl

theorem baseMove_mem (kd : Kind) (d s : Nat) : baseMove (memNodes (α := α)) kd d s = LL.baseMove kd d s := by
  unfold baseMove
  rw [baseClear_mem]
  cases kd <;> rfl

theorem baseDrop_mem (kd : Kind) (k : Nat) : baseDrop (memNodes (α := α)) kd k = LL.baseDrop kd k := by
  unfold baseDrop
  rw [baseClear_mem]
  rfl

namespace D

theorem pushBack_mem (k : Nat) (a : Arg α) : pushBack memNodes k a = DL.pushBack k a := by
  unfold pushBack
  rw [newNode_mem]
  rfl

theorem copyLoop_mem (d s : Nat) (p : Ptr) : copyLoop (memNodes (α := α)) d s p = DL.copyLoop d s p := by
  delta copyLoop DL.copyLoop; rfl

theorem backward_mem (k : Nat) : backward (memNodes (α := α)) k = DL.backward k := by
  have : ∀ b p, backwardFrom (memNodes (α := α)) k b p = DL.backwardFrom k b p := by
    intro b p
    delta backwardFrom DL.backwardFrom; rfl
  exact congrArg (LL.getNext (.head k) >>= ·) (funext fun q => this q _)

theorem copyAssign_mem (d s : Nat) : copyAssign (memNodes (α := α)) d s = DL.copyAssign d s := by
  unfold copyAssign
  rw [baseClear_mem]
  exact congrArg (LL.baseClear .doubly d >>= ·) (funext fun _ =>
    congrArg (LL.getNext (.head s) >>= ·) (funext fun q => copyLoop_mem d s q))

theorem moveAssign_mem (d s : Nat) : moveAssign (memNodes (α := α)) d s = DL.moveAssign d s := by
  unfold moveAssign
  rw [baseMove_mem]
  rfl

theorem step_mem (dflt : Option α) (op : DL.Op α) : step memNodes dflt op = DL.step dflt op := by
  cases op with
  | new k => exact baseNew_mem _ _ _
  | newFill k n x =>
    show newFill memNodes dflt k n x = DL.newFill dflt k n x
    unfold newFill
    rw [baseNew_mem, pushBack_mem]
    rfl
  | pushFront k x => exact basePushFront_mem _ _ _
  | pushBack k x => exact pushBack_mem _ _
  | pushFrontElem k j i =>
    show (nth memNodes j i >>= fun q => basePushFront memNodes .doubly k (.ref q)) = _
    rw [nth_mem]
    exact congrArg (LL.nth j i >>= ·) (funext fun q => basePushFront_mem _ _ _)
  | pushBackElem k j i =>
    show (nth memNodes j i >>= fun q => pushBack memNodes k (.ref q)) = _
    rw [nth_mem]
    exact congrArg (LL.nth j i >>= ·) (funext fun q => pushBack_mem _ _)
  | set k i x =>
    show (nth memNodes k i >>= fun q => LL.setData q x) = _
    rw [nth_mem]
    rfl
  | popFront k => exact basePopFront_mem _ _
  | popBack k => rfl
  | clear k => exact baseClear_mem _ _
  | copy d s =>
    show (LL.get (.head d) >>= fun _ => LL.get (.head s) >>= fun _ =>
      if d = s then pure () else copyAssign memNodes d s) = _
    rw [copyAssign_mem]
    rfl
  | move d s =>
    show (LL.get (.head d) >>= fun _ => LL.get (.head s) >>= fun _ =>
      if d = s then pure () else moveAssign memNodes d s) = _
    rw [moveAssign_mem]
    rfl
  | drop k => exact baseDrop_mem _ _

end D

namespace S

theorem pushBack_mem (k : Nat) (a : Arg α) : pushBack memNodes k a = SL.pushBack k a := by
  unfold pushBack
  rw [newNode_mem]
  rfl

theorem pushFront_mem (k : Nat) (a : Arg α) : pushFront memNodes k a = SL.pushFront k a := by
  unfold pushFront
  rw [basePushFront_mem]
  rfl

theorem clear_mem (k : Nat) : clear (memNodes (α := α)) k = SL.clear k := by
  unfold clear
  rw [baseClear_mem]
  rfl

theorem copyLoop_mem (d s : Nat) (p q : Ptr) :
    copyLoop (memNodes (α := α)) d s p q = SL.copyLoop d s p q := by
  delta copyLoop SL.copyLoop; rfl

theorem findLast_mem (k : Nat) (p : Ptr) : findLast (memNodes (α := α)) k p = SL.findLast k p := by
  delta findLast SL.findLast; rfl

theorem popBack_mem (k : Nat) : popBack (memNodes (α := α)) k = SL.popBack k := by
  unfold popBack
  rw [findLast_mem]
  rfl

theorem copyAssign_mem (d s : Nat) : copyAssign (memNodes (α := α)) d s = SL.copyAssign d s := by
  unfold copyAssign
  rw [clear_mem]
  simp only [pushBack_mem, copyLoop_mem]
  rfl

theorem moveAssign_mem (d s : Nat) : moveAssign (memNodes (α := α)) d s = SL.moveAssign d s := by
  unfold moveAssign
  rw [baseMove_mem]
  rfl

theorem step_mem (dflt : Option α) (op : SL.Op α) : step memNodes dflt op = SL.step dflt op := by
  cases op with
  | new k =>
    show new memNodes dflt k = SL.new dflt k
    unfold new
    rw [baseNew_mem]
    rfl
  | newFill k n x =>
    show newFill memNodes dflt k n x = SL.newFill dflt k n x
    unfold newFill new
    rw [baseNew_mem, pushBack_mem]
    rfl
  | pushFront k x => exact pushFront_mem _ _
  | pushBack k x => exact pushBack_mem _ _
  | popFront k =>
    show popFront memNodes k = SL.popFront k
    unfold popFront
    rw [basePopFront_mem]
    rfl
  | popBack k => exact popBack_mem _
  | push k x => exact basePushFront_mem _ _ _
  | pop k => exact basePopFront_mem _ _
  | clear k => exact clear_mem _
  | copy d s =>
    show (LL.get (.head d) >>= fun _ => LL.get (.head s) >>= fun _ =>
      if d = s then pure () else copyAssign memNodes d s) = _
    rw [copyAssign_mem]
    rfl
  | move d s =>
    show (LL.get (.head d) >>= fun _ => LL.get (.head s) >>= fun _ =>
      if d = s then pure () else moveAssign memNodes d s) = _
    rw [moveAssign_mem]
    rfl
  | drop k => exact baseDrop_mem _ _

end S

/-! ## The relation between nodes with identifiers and bytes -/

/-- Node `n` is at address `f n`. -/
def F (f : Nat → Nat) : Ptr → Ptr
  | .null => .null
  | .head k => .head k
  | .node n => .node (f n)

/-- The pointer does not point to a node that is still to come. -/
def Old (b : Nat) : Ptr → Prop
  | .node n => n < b
  | _ => True

theorem Old.mono {b b' : Nat} {p : Ptr} (h : Old b p) (hb : b ≤ b') : Old b' p := by
  cases p <;> unfold Old at *
  · trivial
  · trivial
  · omega

theorem F_congr {f f' : Nat → Nat} {b : Nat} (h : ∀ n, n < b → f' n = f n) {p : Ptr} (hp : Old b p) :
    F f' p = F f p := by
  cases p with
  | null => rfl
  | head k => rfl
  | node n => exact congrArg Ptr.node (h n hp)

@[simp] theorem F_null {f : Nat → Nat} {p : Ptr} : F f p = .null ↔ p = .null := by
  cases p <;> simp [F]

@[simp] theorem F_head {f : Nat → Nat} {p : Ptr} {k : Nat} : F f p = .head k ↔ p = .head k := by
  cases p <;> simp [F]

/-- The same cell with addresses. -/
def cmap (f : Nat → Nat) (h : Cell α) : Cell α := ⟨F f h.next, F f h.prev, h.data⟩

section
variable (c : Sma.Cfg) (G : Slots.Env) (kd : Kind) (K : Pool.Layout α) (D : PtrRep)

/-- The bytes at address `a` are the node `h`. -/
def CellAt (f : Nat → Nat) (mem : Nat → Sma.Cell) (a : Nat) (h : Cell α) : Prop :=
  mem a = D.enc (F f h.next) ∧ (kd = .doubly → mem (a + 8) = D.enc (F f h.prev)) ∧
  ∀ x, h.data = some x → ∀ j, j < K.words → mem (a + 8 * links kd + 8 * j) = K.enc x j

/-- The same lists, with node `n` at address `f n` of the pool. -/
structure R (f : Nat → Nat) (m : Mem α) (w : PMem α) : Prop where
  fresh : ∀ n, m.next ≤ n → m.cell (.node n) = none
  old : ∀ p h, m.cell p = some (some h) → Old m.next h.next ∧ Old m.next h.prev
  oldTail : ∀ k, Old m.next (m.tail k)
  heads : ∀ k h, m.cell (.head k) = some (some h) → w.head k = some (cmap f h)
  dead : ∀ k, m.cell (.head k) = none → w.head k = none
  sz : w.sz = m.sz
  tail : ∀ k, w.tail k = F f (m.tail k)
  held : ∃ bs, Slots.Held c (nodeWords kd K) G f bs w.pool ∧ ∀ n, n ∈ bs ↔ m.cell (.node n) ≠ none
  data : ∀ n h, m.cell (.node n) = some (some h) → h.data ≠ none
  cells : ∀ n h, m.cell (.node n) = some (some h) → CellAt kd K D f w.pool.mem (f n) h

end

variable {md : Sma.Mode} {c : Sma.Cfg} {G : Slots.Env} {kd : Kind} {K : Pool.Layout α} {D : PtrRep}

theorem links_pos : 0 < links kd := by cases kd <;> decide

theorem nodeWords_pos : 0 < nodeWords kd K := Nat.lt_of_lt_of_le links_pos (Nat.le_add_right _ _)

theorem onPool_returns {β : Type} {p : Prog Sma.St β} {w : PMem α} {a : β} {s : Sma.St}
    (h : Returns p w.pool a s) : Returns (onPool p) w a { w with pool := s } := by
  unfold Returns onPool at *
  rw [h]

theorem onPool_faults {β : Type} {p : Prog Sma.St β} {w : PMem α} {e : Fault}
    (h : Faults p w.pool e) : Faults (onPool p) w e := by
  unfold Faults onPool at *
  rw [h]

section
variable {f : Nat → Nat} {m m' : Mem α} {w : PMem α}

theorem CellAt.congr {mem mem' : Nat → Sma.Cell} {a : Nat} {h : Cell α}
    (hc : CellAt kd K D f mem a h) (he : ∀ j, j < nodeWords kd K → mem' (a + 8 * j) = mem (a + 8 * j)) :
    CellAt kd K D f mem' a h := by
  obtain ⟨h1, h2, h3⟩ := hc
  have hp := K.pos
  refine ⟨?_, ?_, ?_⟩
  · rw [← h1]; exact he 0 nodeWords_pos
  · rintro rfl
    rw [← h2 rfl]
    exact he 1 (by show 1 < 2 + K.words; omega)
  · intro x hx j hj
    rw [← h3 x hx j hj]
    have := he (links kd + j) (by unfold nodeWords; omega)
    rw [show a + 8 * links kd + 8 * j = a + 8 * (links kd + j) by omega]
    exact this

theorem R.addr (hc : Sma.Legal c) (h : R c G kd K D f m w) {n : Nat} (hn : m.cell (.node n) ≠ none) :
    f n ≠ 0 ∧ ∀ j, j < nodeWords kd K → f n + 8 * j ≠ 0 ∧ c.inPool (f n + 8 * j) := by
  obtain ⟨bs, h1, h2⟩ := h.held
  obtain ⟨g1, g2, g3, _⟩ := h1.inPool hc ((h2 n).2 hn)
  have h0 := hc.obj
  have hb : c.base = c.obj + 4 := rfl
  refine ⟨by omega, fun j hj => ⟨by omega, ?_⟩⟩
  unfold Sma.Cfg.inPool
  omega

theorem R.inj (hc : Sma.Legal c) (h : R c G kd K D f m w) {n n' : Nat} (hn : m.cell (.node n) ≠ none)
    (hn' : m.cell (.node n') ≠ none) (he : f n = f n') : n = n' := by
  obtain ⟨bs, h1, h2⟩ := h.held
  exact h1.inj hc ((h2 n).2 hn) ((h2 n').2 hn') he

/-- A change of counters and pointers of the list objects. -/
theorem R.side (h : R c G kd K D f m w) {sz : Nat → Nat} {tl tl' : Nat → Ptr}
    (ht : ∀ k, Old m.next (tl k) ∧ tl' k = F f (tl k)) :
    R c G kd K D f { m with sz := sz, tail := tl } { w with sz := sz, tail := tl' } :=
  ⟨h.fresh, h.old, fun k => (ht k).1, h.heads, h.dead, rfl, fun k => (ht k).2, h.held, h.data, h.cells⟩

/-- A write to a node. -/
theorem R.write (hc : Sma.Legal c) (h : R c G kd K D f m w) {n : Nat} (hn : m.cell (.node n) ≠ none)
    {o t : Nat} (ht : o + t ≤ nodeWords kd K) (g : Nat → Sma.Cell) (o' : Option (Cell α))
    (hm : m'.cell = fun x => if x = .node n then some o' else m.cell x) (hnx : m'.next = m.next)
    (hsz : m'.sz = m.sz) (htl : m'.tail = m.tail)
    (ho : ∀ h', o' = some h' → ((Old m.next h'.next ∧ Old m.next h'.prev) ∧ h'.data ≠ none) ∧
      CellAt kd K D f (pokeN t w.pool.mem (f n + 8 * o) g) (f n) h') :
    R c G kd K D f m' { w with pool := { w.pool with mem := pokeN t w.pool.mem (f n + 8 * o) g } } := by
  obtain ⟨bs, h1, h2⟩ := h.held
  have hin := (h2 n).2 hn
  refine ⟨?_, ?_, ?_, ?_, ?_, by rw [hsz]; exact h.sz, by rw [htl]; exact h.tail, ⟨bs, h1.write hc hin ht g, ?_⟩, ?_, ?_⟩
  · intro x hx
    rw [hnx] at hx
    rw [hm]
    simp only
    rw [if_neg, h.fresh x hx]
    intro e; cases e
    exact hn (h.fresh n hx)
  · intro p h' hp
    rw [hnx]
    rw [hm] at hp
    simp only at hp
    split at hp
    · cases hp; exact (ho _ rfl).1.1
    · exact h.old p h' hp
  · rw [hnx, htl]; exact h.oldTail
  · intro k h' hk
    rw [hm] at hk
    simp only at hk
    rw [if_neg (by intro e; cases e)] at hk
    exact h.heads k h' hk
  · intro k hk
    rw [hm] at hk
    simp only at hk
    rw [if_neg (by intro e; cases e)] at hk
    exact h.dead k hk
  · intro x
    rw [h2, hm]
    simp only
    by_cases hx : x = n
    · subst hx; simp [hn]
    · rw [if_neg (by intro e; cases e; exact hx rfl)]
  · intro x h' hx
    rw [hm] at hx
    simp only at hx
    split at hx
    · cases hx; exact (ho _ rfl).1.2
    · exact h.data x h' hx
  · intro x h' hx
    rw [hm] at hx
    simp only at hx
    by_cases hxn : x = n
    · subst hxn
      rw [if_pos rfl] at hx
      cases hx
      exact (ho _ rfl).2
    · rw [if_neg (by intro e; cases e; exact hxn rfl)] at hx
      refine (h.cells x h' hx).congr fun j hj => ?_
      exact h1.write_other hc hin ((h2 x).2 (by rw [hx]; simp)) hxn ht g hj

/-- A change of a sentinel. -/
theorem R.head (h : R c G kd K D f m w) {k : Nat} (o' : Option (Option (Cell α))) (o'' : Option (Cell α))
    (hm : m'.cell = fun x => if x = .head k then o' else m.cell x) (hnx : m'.next = m.next)
    (hsz : m'.sz = m.sz) (htl : m'.tail = m.tail)
    (ho : ∀ h', o' = some (some h') → (Old m.next h'.next ∧ Old m.next h'.prev) ∧ o'' = some (cmap f h'))
    (hd : o' = none → o'' = none) :
    R c G kd K D f m' { w with head := fun x => if x = k then o'' else w.head x } := by
  obtain ⟨bs, h1, h2⟩ := h.held
  have hnode : ∀ x, m'.cell (.node x) = m.cell (.node x) := by
    intro x
    rw [hm]
    simp only
    rw [if_neg (by intro e; cases e)]
  refine ⟨?_, ?_, ?_, ?_, ?_, by rw [hsz]; exact h.sz, by rw [htl]; exact h.tail, ⟨bs, h1, ?_⟩, ?_, ?_⟩
  · intro x hx
    rw [hnode, h.fresh x (by rw [← hnx]; exact hx)]
  · intro p h' hp
    rw [hnx]
    rw [hm] at hp
    simp only at hp
    split at hp
    · exact (ho _ hp).1
    · exact h.old p h' hp
  · rw [hnx, htl]; exact h.oldTail
  · intro j h' hj
    rw [hm] at hj
    simp only at hj ⊢
    by_cases hjk : j = k
    · subst hjk
      rw [if_pos rfl] at hj ⊢
      exact (ho _ hj).2
    · rw [if_neg (by intro e; cases e; exact hjk rfl)] at hj
      rw [if_neg hjk]
      exact h.heads j h' hj
  · intro j hj
    rw [hm] at hj
    simp only at hj ⊢
    by_cases hjk : j = k
    · subst hjk
      rw [if_pos rfl] at hj ⊢
      exact hd hj
    · rw [if_neg (by intro e; cases e; exact hjk rfl)] at hj
      rw [if_neg hjk]
      exact h.dead j hj
  · intro x; rw [hnode]; exact h2 x
  · intro x h' hx
    rw [hnode] at hx
    exact h.data x h' hx
  · intro x h' hx
    rw [hnode] at hx
    exact h.cells x h' hx

end

/-! ## What returns on nodes with identifiers -/

theorem returns_get {p : Ptr} {m m' : Mem α} {h : Cell α} (hr : Returns (LL.get p) m h m') :
    m' = m ∧ p ≠ .null ∧ m.cell p = some (some h) := by
  unfold Returns LL.get at hr
  split at hr
  · cases hr
  · rename_i hp
    split at hr
    · cases hr
    · cases hr
    · rename_i e; cases hr; exact ⟨rfl, hp, e⟩

theorem returns_modify {σ : Type} {g : σ → σ} {s t : σ} (h : Returns (Prog.modify g) s () t) : t = g s := by
  cases h; rfl

/-! ## Simulation -/

/-- Later states: addresses of nodes stay. -/
structure Ext (f : Nat → Nat) (m : Mem α) (f' : Nat → Nat) (m' : Mem α) : Prop where
  same : ∀ n, n < m.next → f' n = f n
  next : m.next ≤ m'.next

theorem Ext.refl (f : Nat → Nat) (m : Mem α) : Ext f m f m := ⟨fun _ _ => rfl, Nat.le_refl _⟩

theorem Ext.trans {f f1 f2 : Nat → Nat} {m m1 m2 : Mem α} (h : Ext f m f1 m1) (h' : Ext f1 m1 f2 m2) :
    Ext f m f2 m2 :=
  ⟨fun b hb => (h'.same b (Nat.lt_of_lt_of_le hb h.next)).trans (h.same b hb),
    Nat.le_trans h.next h'.next⟩

/-- Whenever `p` returns on nodes with identifiers, `q` on the bytes stops for lack of memory, and
then `P` holds after `p`, or returns in a related state. -/
def Sim (c : Sma.Cfg) (G : Slots.Env) (kd : Kind) (K : Pool.Layout α) (D : PtrRep) (P : Mem α → Prop) {β γ : Type}
    (f : Nat → Nat) (m : Mem α) (w : PMem α) (p : Prog (Mem α) β) (q : Prog (PMem α) γ)
    (A : (Nat → Nat) → Mem α → β → γ → Prop) : Prop :=
  ∀ a m', Returns p m a m' → (P m' ∧ Faults q w .crash) ∨
    ∃ a' w' f', Returns q w a' w' ∧ Ext f m f' m' ∧ R c G kd K D f' m' w' ∧ A f' m' a a'

/-- Related pointers. -/
def PR (f : Nat → Nat) (m : Mem α) (p p' : Ptr) : Prop := Old m.next p ∧ p' = F f p

theorem PR.ext {f f' : Nat → Nat} {m m' : Mem α} {p p' : Ptr} (h : PR f m p p') (he : Ext f m f' m') :
    PR f' m' p p' :=
  ⟨h.1.mono he.next, by rw [h.2, F_congr he.same h.1]⟩

theorem PR.head {f : Nat → Nat} {m : Mem α} {k : Nat} : PR f m (.head k) (.head k) := ⟨trivial, rfl⟩

theorem PR.null {f : Nat → Nat} {m : Mem α} : PR f m .null .null := ⟨trivial, rfl⟩

/-- The relation between results that are no pointers. -/
def Same {β : Type} (_ : Nat → Nat) (_ : Mem α) (a a' : β) : Prop := a' = a

section
variable {P : Mem α → Prop} {β γ β' γ' : Type} {f : Nat → Nat} {m : Mem α} {w : PMem α}

/-- A step that never lacks memory, then another. -/
theorem Sim.bind {p : Prog (Mem α) β} {q : Prog (PMem α) γ} {A : (Nat → Nat) → Mem α → β → γ → Prop}
    {g : β → Prog (Mem α) β'} {h : γ → Prog (PMem α) γ'} {B : (Nat → Nat) → Mem α → β' → γ' → Prop}
    (h1 : Sim c G kd K D (fun _ => False) f m w p q A)
    (h2 : ∀ f' m' w' a a', Ext f m f' m' → R c G kd K D f' m' w' → A f' m' a a' → Returns p m a m' →
      Sim c G kd K D P f' m' w' (g a) (h a') B) :
    Sim c G kd K D P f m w (p >>= g) (q >>= h) B := by
  intro b m2 hr
  obtain ⟨a, m1, r1, r2⟩ := returns_bind hr
  rcases h1 a m1 r1 with ⟨hp, hf⟩ | ⟨a', s', f', g1, g2, g3, g4⟩
  · exact hp.elim
  · rcases h2 f' m1 s' a a' g2 g3 g4 r1 b m2 r2 with ⟨hp, hf⟩ | ⟨b', s2, f2, e1, e2, e3, e4⟩
    · exact Or.inl ⟨hp, by unfold Faults; rw [bind_returns g1]; exact hf⟩
    · exact Or.inr ⟨b', s2, f2, by unfold Returns; rw [bind_returns g1]; exact e1, g2.trans e2, e3, e4⟩

/-- A step that may lack memory, then another that keeps the reason. -/
theorem Sim.bindM {p : Prog (Mem α) β} {q : Prog (PMem α) γ} {A : (Nat → Nat) → Mem α → β → γ → Prop}
    {g : β → Prog (Mem α) β'} {h : γ → Prog (PMem α) γ'} {B : (Nat → Nat) → Mem α → β' → γ' → Prop}
    (h1 : Sim c G kd K D P f m w p q A)
    (hk : ∀ a m1 b m2, Returns (g a) m1 b m2 → P m1 → P m2)
    (h2 : ∀ f' m' w' a a', Ext f m f' m' → R c G kd K D f' m' w' → A f' m' a a' → Returns p m a m' →
      Sim c G kd K D P f' m' w' (g a) (h a') B) :
    Sim c G kd K D P f m w (p >>= g) (q >>= h) B := by
  intro b m2 hr
  obtain ⟨a, m1, r1, r2⟩ := returns_bind hr
  rcases h1 a m1 r1 with ⟨hp, hf⟩ | ⟨a', s', f', g1, g2, g3, g4⟩
  · exact Or.inl ⟨hk a m1 b m2 r2 hp, bind_faults hf⟩
  · rcases h2 f' m1 s' a a' g2 g3 g4 r1 b m2 r2 with ⟨hp, hf⟩ | ⟨b', s2, f2, e1, e2, e3, e4⟩
    · exact Or.inl ⟨hp, by unfold Faults; rw [bind_returns g1]; exact hf⟩
    · exact Or.inr ⟨b', s2, f2, by unfold Returns; rw [bind_returns g1]; exact e1, g2.trans e2, e3, e4⟩

theorem Sim.pure {a : β} {a' : γ} {A : (Nat → Nat) → Mem α → β → γ → Prop} (hR : R c G kd K D f m w)
    (h : A f m a a') : Sim c G kd K D P f m w (Pure.pure a) (Pure.pure a') A := by
  intro b m' hr
  obtain ⟨rfl, rfl⟩ := returns_pure hr
  exact Or.inr ⟨a', w, f, rfl, Ext.refl _ _, hR, h⟩

theorem Sim.mono {p : Prog (Mem α) β} {q : Prog (PMem α) γ} {A B : (Nat → Nat) → Mem α → β → γ → Prop}
    {Q : Mem α → Prop} (h : Sim c G kd K D P f m w p q A) (hp : ∀ m', P m' → Q m')
    (hA : ∀ f' m' a a', Ext f m f' m' → A f' m' a a' → B f' m' a a') : Sim c G kd K D Q f m w p q B := by
  intro a m' hr
  rcases h a m' hr with ⟨h1, h2⟩ | ⟨a', s', f', g1, g2, g3, g4⟩
  · exact Or.inl ⟨hp _ h1, h2⟩
  · exact Or.inr ⟨a', s', f', g1, g2, g3, hA _ _ _ _ g2 g4⟩

theorem Sim.any {p : Prog (Mem α) β} {q : Prog (PMem α) γ} {A : (Nat → Nat) → Mem α → β → γ → Prop}
    (h : Sim c G kd K D (fun _ => False) f m w p q A) : Sim c G kd K D P f m w p q A :=
  h.mono (fun _ h => h.elim) fun _ _ _ _ _ h => h

theorem Sim.check {Q Q' : Prop} [Decidable Q] [Decidable Q'] {e e' : Fault} (hR : R c G kd K D f m w)
    (h : Q → Q') : Sim c G kd K D P f m w (Prog.check Q e) (Prog.check Q' e') Same := by
  intro a m' hr
  obtain ⟨hq, rfl⟩ := returns_check hr
  exact Or.inr ⟨(), w, f, check_ok w (h hq), Ext.refl _ _, hR, rfl⟩

theorem Sim.ite {Q Q' : Prop} [Decidable Q] [Decidable Q'] {p p2 : Prog (Mem α) β}
    {q q2 : Prog (PMem α) γ} {A : (Nat → Nat) → Mem α → β → γ → Prop} (he : Q ↔ Q')
    (h1 : Q → Sim c G kd K D P f m w p q A) (h2 : ¬ Q → Sim c G kd K D P f m w p2 q2 A) :
    Sim c G kd K D P f m w (if Q then p else p2) (if Q' then q else q2) A := by
  by_cases hq : Q
  · rw [if_pos hq, if_pos (he.1 hq)]; exact h1 hq
  · rw [if_neg hq, if_neg (fun h => hq (he.2 h))]; exact h2 hq

/-- Reading something. -/
theorem Sim.read {p : Prog (Mem α) β} {q : Prog (PMem α) γ} {A : (Nat → Nat) → Mem α → β → γ → Prop}
    (hR : R c G kd K D f m w)
    (h : ∀ a m', Returns p m a m' → m' = m ∧ ∃ a', Returns q w a' w ∧ A f m a a') :
    Sim c G kd K D P f m w p q A := by
  intro a m' hr
  obtain ⟨rfl, a', h1, h2⟩ := h a m' hr
  exact Or.inr ⟨a', w, f, h1, Ext.refl _ _, hR, h2⟩

/-- A step that keeps the addresses. -/
theorem Sim.act {p : Prog (Mem α) Unit} {q : Prog (PMem α) Unit}
    (h : ∀ m', Returns p m () m' → m'.next = m.next ∧ ∃ w', Returns q w () w' ∧ R c G kd K D f m' w') :
    Sim c G kd K D P f m w p q Same := by
  intro a m' hr
  obtain ⟨hn, w', h1, h2⟩ := h m' hr
  exact Or.inr ⟨(), w', f, h1, ⟨fun _ _ => rfl, by rw [hn]; exact Nat.le_refl _⟩, h2, rfl⟩

end

/-! ## The parts -/

section
variable {P : Mem α → Prop} {f : Nat → Nat} {m : Mem α} {w : PMem α}

theorem upd_cell {p : Ptr} {h : Cell α} (hp : m.cell p = some (some h)) (g : Cell α → Cell α) :
    (m.upd p g).cell = fun x => if x = p then some (some (g h)) else m.cell x := by
  funext x
  show (if x = p then (m.cell x).map (·.map g) else m.cell x) = _
  by_cases hx : x = p
  · subst hx; rw [if_pos rfl, if_pos rfl, hp]; rfl
  · rw [if_neg hx, if_neg hx]

theorem pokeN_one (mem : Nat → Sma.Cell) (p : Nat) (x : Sma.Cell) : pokeN 1 mem p (fun _ => x) p = x :=
  Slots.pokeN_in (j := 0) (by omega)

theorem getHead_ok (h : R c G kd K D f m w) {k : Nat} {x : Cell α} (hk : m.cell (.head k) = some (some x)) :
    Returns (getHead k) w (cmap f x) w := by
  unfold Returns getHead
  rw [h.heads k x hk]

theorem touchWord_ok (hc : Sma.Legal c) (h : R c G kd K D f m w) {n : Nat} (hn : m.cell (.node n) ≠ none)
    {j : Nat} (hj : j < nodeWords kd K) (s : Sma.St) : Returns (touchWord c (f n + 8 * j)) s () s := by
  obtain ⟨g1, g2⟩ := (h.addr hc hn).2 j hj
  unfold Returns touchWord
  rw [bind_returns (check_ok s g1)]
  exact check_ok s g2

theorem touchObj_ok (hc : Sma.Legal c) (h : R c G kd K D f m w) {n : Nat} (hn : m.cell (.node n) ≠ none)
    (s : Sma.St) : Returns (Pool.touchObj c K (f n + 8 * links kd)) s () s := by
  have hp := K.pos
  have hg := (h.addr hc hn).2
  unfold Returns Pool.touchObj
  rw [bind_returns (check_ok s (hg (links kd) (by unfold nodeWords; omega)).1)]
  refine check_ok s fun j hj => ?_
  have := (hg (links kd + j) (by unfold nodeWords; omega)).2
  rw [show f n + 8 * links kd + 8 * j = f n + 8 * (links kd + j) by omega]
  exact this

theorem savePtr_ok (hc : Sma.Legal c) (h : R c G kd K D f m w) {n : Nat} (hn : m.cell (.node n) ≠ none)
    {j : Nat} (hj : j < nodeWords kd K) (s : Sma.St) (p : Ptr) :
    Returns (savePtr c D (f n + 8 * j) p) s () { s with mem := pokeN 1 s.mem (f n + 8 * j) fun _ => D.enc p } := by
  unfold Returns savePtr
  rw [bind_returns (touchWord_ok hc h hn hj s), ← Slots.upd_eq]
  rfl

theorem saveObj_ok (hc : Sma.Legal c) (h : R c G kd K D f m w) {n : Nat} (hn : m.cell (.node n) ≠ none)
    (s : Sma.St) (g : Nat → Sma.Cell) :
    Returns (Pool.save c K (f n + 8 * links kd) g) s ()
      { s with mem := pokeN K.words s.mem (f n + 8 * links kd) g } := by
  unfold Returns Pool.save
  rw [bind_returns (touchObj_ok hc h hn s)]
  rfl

theorem loadPtr_ok (hc : Sma.Legal c) (h : R c G kd K D f m w) {n : Nat} (hn : m.cell (.node n) ≠ none)
    {j : Nat} (hj : j < nodeWords kd K) {p : Ptr} (hp : w.pool.mem (f n + 8 * j) = D.enc p) :
    Returns (loadPtr c D (f n + 8 * j)) w.pool p w.pool := by
  unfold Returns loadPtr
  rw [bind_returns (touchWord_ok hc h hn hj _), bind_returns (show Returns Prog.get w.pool w.pool w.pool from rfl),
    hp, D.dec_enc]
  rfl

theorem getHead_sim (h : R c G kd K D f m w) (k : Nat) :
    Sim c G kd K D P f m w (memNodes.getHead k) ((poolNodes md c kd K D).getHead k)
      fun f' m' x x' => (Old m'.next x.next ∧ Old m'.next x.prev) ∧ x' = cmap f' x := by
  refine Sim.read h fun x m' hr => ?_
  obtain ⟨rfl, _, hk⟩ := returns_get (p := .head k) hr
  exact ⟨rfl, _, getHead_ok h hk, h.old _ _ hk, rfl⟩

theorem returns_getNext {p q : Ptr} {m' : Mem α} (hr : Returns (LL.getNext p) m q m') :
    m' = m ∧ p ≠ .null ∧ ∃ h, m.cell p = some (some h) ∧ q = h.next := by
  obtain ⟨h, m1, r1, r2⟩ := returns_bind hr
  obtain ⟨rfl, hp, hk⟩ := returns_get r1
  obtain ⟨rfl, rfl⟩ := returns_pure r2
  exact ⟨rfl, hp, h, hk, rfl⟩

theorem returns_getPrev {p q : Ptr} {m' : Mem α} (hr : Returns (LL.getPrev p) m q m') :
    m' = m ∧ p ≠ .null ∧ ∃ h, m.cell p = some (some h) ∧ q = h.prev := by
  obtain ⟨h, m1, r1, r2⟩ := returns_bind hr
  obtain ⟨rfl, hp, hk⟩ := returns_get r1
  obtain ⟨rfl, rfl⟩ := returns_pure r2
  exact ⟨rfl, hp, h, hk, rfl⟩

theorem returns_getData {p : Ptr} {x : α} {m' : Mem α} (hr : Returns (LL.getData p) m x m') :
    m' = m ∧ p ≠ .null ∧ ∃ h, m.cell p = some (some h) ∧ h.data = some x := by
  obtain ⟨h, m1, r1, r2⟩ := returns_bind hr
  obtain ⟨rfl, hp, hk⟩ := returns_get r1
  cases hd : h.data with
  | none => rw [hd] at r2; cases r2
  | some y =>
    rw [hd] at r2
    obtain ⟨rfl, rfl⟩ := returns_pure r2
    exact ⟨rfl, hp, h, hk, hd⟩

theorem getNext_sim (hc : Sma.Legal c) (h : R c G kd K D f m w) {p p' : Ptr} (hp : PR f m p p') :
    Sim c G kd K D P f m w (memNodes.getNext p) ((poolNodes md c kd K D).getNext p') PR := by
  refine Sim.read h fun q m' hr => ?_
  obtain ⟨rfl, h0, x, hk, rfl⟩ := returns_getNext hr
  obtain ⟨_, rfl⟩ := hp
  refine ⟨rfl, F f x.next, ?_, (h.old _ _ hk).1, rfl⟩
  cases p with
  | null => exact absurd rfl h0
  | head k => unfold Returns; exact (bind_returns (getHead_ok h hk)).trans rfl
  | node n =>
    exact onPool_returns (loadPtr_ok hc h (by rw [hk]; simp) (j := 0) nodeWords_pos (h.cells n x hk).1)

theorem getPrev_sim (hc : Sma.Legal c) (h : R c G .doubly K D f m w) {p p' : Ptr} (hp : PR f m p p') :
    Sim c G .doubly K D P f m w (memNodes.getPrev p) ((poolNodes md c .doubly K D).getPrev p') PR := by
  refine Sim.read h fun q m' hr => ?_
  obtain ⟨rfl, h0, x, hk, rfl⟩ := returns_getPrev hr
  obtain ⟨_, rfl⟩ := hp
  refine ⟨rfl, F f x.prev, ?_, (h.old _ _ hk).2, rfl⟩
  cases p with
  | null => exact absurd rfl h0
  | head k => unfold Returns; exact (bind_returns (getHead_ok h hk)).trans rfl
  | node n =>
    exact onPool_returns (loadPtr_ok hc h (by rw [hk]; simp) (j := 1)
      (by show 1 < 2 + K.words; omega) ((h.cells n x hk).2.1 rfl))

theorem getData_sim (hc : Sma.Legal c) (h : R c G kd K D f m w) {p p' : Ptr} (hp : PR f m p p') :
    Sim c G kd K D P f m w (memNodes.getData p) ((poolNodes md c kd K D).getData p') Same := by
  refine Sim.read h fun y m' hr => ?_
  obtain ⟨rfl, h0, x, hk, hx⟩ := returns_getData hr
  obtain ⟨_, rfl⟩ := hp
  refine ⟨rfl, y, ?_, rfl⟩
  cases p with
  | null => exact absurd rfl h0
  | head k =>
    unfold Returns
    refine (bind_returns (getHead_ok h hk)).trans ?_
    have : ∀ z : Option α, z = some y → Returns (match z with
        | none => fail .uninit
        | some x => Pure.pure x : Prog (PMem α) α) w y w := by rintro _ rfl; rfl
    exact this x.data hx
  | node n =>
    refine onPool_returns ?_
    unfold Returns Pool.load
    rw [bind_returns (touchObj_ok hc h (by rw [hk]; simp) _),
      bind_returns (show Returns Prog.get w.pool w.pool w.pool from rfl),
      K.dec_enc y _ (fun j hj => (h.cells n x hk).2.2 y hx j hj)]
    rfl

theorem changeHead_ok (h : R c G kd K D f m w) {k : Nat} {x : Cell α} (hk : m.cell (.head k) = some (some x))
    (g : Cell α → Cell α) : Returns (changeHead k g) w ()
      { w with head := fun y => if y = k then some (g (cmap f x)) else w.head y } := by
  unfold Returns changeHead
  rw [bind_returns (getHead_ok h hk)]
  rfl

theorem returns_upd {p : Ptr} {g : Cell α → Cell α} {m' : Mem α}
    (hr : Returns (do let _ ← LL.get p; modify fun m => m.upd p g) m () m') :
    p ≠ .null ∧ (∃ h, m.cell p = some (some h)) ∧ m' = m.upd p g := by
  obtain ⟨h, m1, r1, r2⟩ := returns_bind hr
  obtain ⟨rfl, hp, hk⟩ := returns_get r1
  exact ⟨hp, ⟨h, hk⟩, returns_modify r2⟩

theorem setNext_sim (hc : Sma.Legal c) (h : R c G kd K D f m w) {p p' q q' : Ptr} (hp : PR f m p p')
    (hq : PR f m q q') :
    Sim c G kd K D P f m w (memNodes.setNext p q) ((poolNodes md c kd K D).setNext p' q') Same := by
  refine Sim.act fun m' hr => ?_
  obtain ⟨h0, ⟨x, hk⟩, rfl⟩ := returns_upd hr
  obtain ⟨_, rfl⟩ := hp
  obtain ⟨hq, rfl⟩ := hq
  refine ⟨rfl, ?_⟩
  cases p with
  | null => exact absurd rfl h0
  | head k =>
    refine ⟨_, changeHead_ok h hk _, ?_⟩
    refine h.head _ _ (upd_cell hk _) rfl rfl rfl ?_ (by intro e; cases e)
    intro h' e; cases e
    exact ⟨⟨hq, (h.old _ _ hk).2⟩, rfl⟩
  | node n =>
    have hn : m.cell (.node n) ≠ none := by rw [hk]; simp
    refine ⟨_, onPool_returns (savePtr_ok hc h hn (j := 0) nodeWords_pos w.pool _), ?_⟩
    have h1 := nodeWords_pos (kd := kd) (K := K)
    refine h.write hc hn (by omega) _ _ (upd_cell hk _) rfl rfl rfl ?_
    intro h' e; cases e
    obtain ⟨c1, c2, c3⟩ := h.cells n x hk
    have hl := links_pos (kd := kd)
    refine ⟨⟨⟨hq, (h.old _ _ hk).2⟩, h.data n x hk⟩, ?_, ?_, ?_⟩
    · exact Slots.pokeN_in (j := 0) (by omega)
    · intro e
      rw [Slots.pokeN_other (by intros; omega)]; exact c2 e
    · intro y hy j hj
      rw [Slots.pokeN_other (by intros; omega)]; exact c3 y hy j hj

theorem setPrev_sim (hc : Sma.Legal c) (h : R c G .doubly K D f m w) {p p' q q' : Ptr} (hp : PR f m p p')
    (hq : PR f m q q') :
    Sim c G .doubly K D P f m w (memNodes.setPrev p q) ((poolNodes md c .doubly K D).setPrev p' q') Same := by
  refine Sim.act fun m' hr => ?_
  obtain ⟨h0, ⟨x, hk⟩, rfl⟩ := returns_upd hr
  obtain ⟨_, rfl⟩ := hp
  obtain ⟨hq, rfl⟩ := hq
  refine ⟨rfl, ?_⟩
  cases p with
  | null => exact absurd rfl h0
  | head k =>
    refine ⟨_, changeHead_ok h hk _, ?_⟩
    refine h.head _ _ (upd_cell hk _) rfl rfl rfl ?_ (by intro e; cases e)
    intro h' e; cases e
    exact ⟨⟨(h.old _ _ hk).1, hq⟩, rfl⟩
  | node n =>
    have hn : m.cell (.node n) ≠ none := by rw [hk]; simp
    have h1 : 1 < nodeWords .doubly K := by show 1 < 2 + K.words; omega
    refine ⟨_, onPool_returns (savePtr_ok hc h hn (j := 1) h1 w.pool _), ?_⟩
    refine h.write hc hn (by omega) _ _ (upd_cell hk _) rfl rfl rfl ?_
    intro h' e; cases e
    obtain ⟨c1, c2, c3⟩ := h.cells n x hk
    have hl : links .doubly = 2 := rfl
    refine ⟨⟨⟨(h.old _ _ hk).1, hq⟩, h.data n x hk⟩, ?_, ?_, ?_⟩
    · rw [Slots.pokeN_other (by intros; omega)]; exact c1
    · intro _
      exact Slots.pokeN_in (j := 0) (by omega)
    · intro y hy j hj
      rw [Slots.pokeN_other (by intros; omega)]; exact c3 y hy j hj

theorem setData_sim (hc : Sma.Legal c) (h : R c G kd K D f m w) {p p' : Ptr} (hp : PR f m p p') (y : α) :
    Sim c G kd K D P f m w (memNodes.setData p y) ((poolNodes md c kd K D).setData p' y) Same := by
  refine Sim.act fun m' hr => ?_
  obtain ⟨h0, ⟨x, hk⟩, rfl⟩ := returns_upd hr
  obtain ⟨_, rfl⟩ := hp
  refine ⟨rfl, ?_⟩
  cases p with
  | null => exact absurd rfl h0
  | head k =>
    refine ⟨_, changeHead_ok h hk _, ?_⟩
    refine h.head _ _ (upd_cell hk _) rfl rfl rfl ?_ (by intro e; cases e)
    intro h' e; cases e
    exact ⟨h.old _ x hk, rfl⟩
  | node n =>
    have hn : m.cell (.node n) ≠ none := by rw [hk]; simp
    refine ⟨_, onPool_returns (saveObj_ok hc h hn w.pool _), ?_⟩
    refine h.write hc hn (Nat.le_refl _) _ _ (upd_cell hk _) rfl rfl rfl ?_
    intro h' e; cases e
    obtain ⟨c1, c2, c3⟩ := h.cells n x hk
    have hl := links_pos (kd := kd)
    refine ⟨⟨h.old _ x hk, by simp⟩, ?_, ?_, ?_⟩
    · rw [Slots.pokeN_other (by intros; omega)]; exact c1
    · intro e
      subst e
      have hl : links .doubly = 2 := rfl
      rw [Slots.pokeN_other (by intros; omega)]; exact c2 rfl
    · intro z hz j hj
      cases hz
      exact Slots.pokeN_in hj

/-- More nodes than fit into the pool, if there is nothing else in it. -/
def Over (c : Sma.Cfg) (G : Slots.Env) (kd : Kind) (K : Pool.Layout α) (m : Mem α) : Prop :=
  G.solo → ∃ bs : List Nat, bs.Nodup ∧ (∀ n ∈ bs, m.cell (.node n) ≠ none) ∧
    c.M / (8 * nodeWords kd K) < bs.length

/-- No room for a node in the pool `s`, and too many nodes in `m`. -/
def Lack (md : Sma.Mode) (c : Sma.Cfg) (G : Slots.Env) (kd : Kind) (K : Pool.Layout α) (s : Sma.St) (m : Mem α) : Prop :=
  Over c G kd K m ∧ (md = .port → Pool.NoRoom c s (Slots.size (nodeWords kd K)))

theorem alloc_sim (hc : Sma.Legal c) (hfit : 8 * nodeWords kd K + 8 < 2 ^ 31) (h : R c G kd K D f m w) :
    (∀ a m', Returns memNodes.alloc m a m' → Lack md c G kd K w.pool m' ∧
      Returns (poolNodes md c kd K D).alloc w .null w) ∨
    Sim c G kd K D (Lack md c G kd K w.pool) f m w memNodes.alloc (poolNodes md c kd K D).alloc PR := by
  obtain ⟨bs, h1, h2⟩ := h.held
  have hn0 : m.next ∉ bs := fun hin => (h2 _).1 hin (h.fresh _ (Nat.le_refl _))
  have hover : (G.solo → c.M / (8 * nodeWords kd K) ≤ bs.length) → ∀ a m', Returns memNodes.alloc m a m' →
      Over c G kd K m' := by
    intro g1 a m' hr hG
    have g1 := g1 hG
    cases hr
    refine ⟨m.next :: bs, List.nodup_cons.2 ⟨hn0, h1.nodup⟩, ?_, by simp only [List.length_cons]; omega⟩
    intro n hn
    simp only
    by_cases e : n = m.next
    · subst e; simp
    · rw [if_neg (by intro e'; cases e'; exact e rfl)]
      exact (h2 n).1 ((List.mem_cons.1 hn).resolve_left e)
  rcases h1.alloc (md := md) hc nodeWords_pos hfit hn0 with ⟨g1, g0, g2 | g2⟩ | ⟨a, s', g1, ha, g2, g3⟩
  · exact Or.inr fun a m' hr => Or.inl ⟨⟨hover g1 a m' hr, g0⟩, bind_faults (onPool_faults g2)⟩
  · refine Or.inl fun a m' hr => ⟨⟨hover g1 a m' hr, g0⟩, ?_⟩
    unfold Returns
    exact (bind_returns (onPool_returns g2)).trans rfl
  right
  intro b m' hr
  cases hr
  · right
    have hsame : ∀ n, n < m.next → place f m.next a n = f n := by
      intro n hn; unfold place; rw [if_neg (by omega)]
    have hF : ∀ p, Old m.next p → F (place f m.next a) p = F f p := fun p hp => F_congr hsame hp
    have hnew : place f m.next a m.next = a := by unfold place; rw [if_pos rfl]
    refine ⟨.node a, { w with pool := s' }, place f m.next a, ?_, ⟨hsame, Nat.le_succ _⟩, ?_, ?_⟩
    · unfold Returns
      refine (bind_returns (onPool_returns g1)).trans ?_
      rw [if_neg ha]
      rfl
    · have hold : ∀ x, x ≠ m.next → (if (Ptr.node x) = .node m.next then some none else m.cell (.node x)) = m.cell (.node x) :=
        fun x hx => if_neg (by intro e; cases e; exact hx rfl)
      refine ⟨?_, ?_, ?_, ?_, ?_, h.sz, ?_, ⟨_, g2, ?_⟩, ?_, ?_⟩
      · intro n hn
        simp only at hn ⊢
        rw [hold n (by omega)]
        exact h.fresh n (by omega)
      · intro p x hp
        simp only at hp ⊢
        split at hp
        · cases hp
        · exact ⟨(h.old p x hp).1.mono (by omega), (h.old p x hp).2.mono (by omega)⟩
      · intro k; exact (h.oldTail k).mono (Nat.le_succ _)
      · intro k x hk
        simp only at hk
        rw [if_neg (by intro e; cases e)] at hk
        show w.head k = _
        rw [h.heads k x hk]
        unfold cmap
        rw [hF _ (h.old _ _ hk).1, hF _ (h.old _ _ hk).2]
      · intro k hk
        simp only at hk
        rw [if_neg (by intro e; cases e)] at hk
        exact h.dead k hk
      · intro k
        show w.tail k = _
        rw [h.tail k]
        exact (hF _ (h.oldTail k)).symm
      · intro n
        simp only
        by_cases e : n = m.next
        · subst e; simp
        · rw [hold n e, List.mem_cons, h2]
          simp [e]
      · intro n x hx
        simp only at hx
        split at hx
        · cases hx
        · exact h.data n x hx
      · intro n x hx
        simp only at hx ⊢
        by_cases e : n = m.next
        · subst e; rw [if_pos rfl] at hx; cases hx
        · rw [hold n e] at hx
          have hlt : n < m.next := by
            refine Nat.lt_of_not_le fun hle => ?_
            rw [h.fresh n hle] at hx; cases hx
          have hcell := (h.cells n x hx).congr (mem' := s'.mem) (g3 n ((h2 n).2 (by rw [hx]; simp)))
          rw [hsame n hlt]
          unfold CellAt at *
          rw [hF _ (h.old _ _ hx).1, hF _ (h.old _ _ hx).2]
          exact hcell
    · exact ⟨Nat.lt_succ_self _, congrArg Ptr.node hnew.symm⟩

theorem construct_sim (hc : Sma.Legal c) (h : R c G kd K D f m w) {n : Nat} {x : Cell α}
    (hx : (Old m.next x.next ∧ Old m.next x.prev) ∧ x.data ≠ none) :
    Sim c G kd K D P f m w (memNodes.construct (.node n) x)
      ((poolNodes md c kd K D).construct (.node (f n)) (cmap f x)) Same := by
  refine Sim.act fun m' hr => ?_
  have hr' : ∃ o, m.cell (.node n) = some o ∧ m' = { m with
      cell := fun y => if y = .node n then some (some x) else m.cell y
      lost := m.lost + (if o.isSome then 1 else 0) } := by
    unfold Returns memNodes LL.constructNode at hr
    simp only at hr
    rw [if_neg (by intro e; cases e)] at hr
    split at hr
    · cases hr
    · rename_i o ho; cases hr; exact ⟨o, ho, rfl⟩
  obtain ⟨o, ho, rfl⟩ := hr'
  have hn : m.cell (.node n) ≠ none := by rw [ho]; simp
  refine ⟨rfl, ?_⟩
  have hl := links_pos (kd := kd)
  have hkp := K.pos
  let m1 : Mem α := { m with cell := fun y => if y = .node n then some none else m.cell y }
  have hn1 : m1.cell (.node n) ≠ none := by show (if _ then _ else _) ≠ none; simp
  have hidem : m1.cell = fun y => if y = .node n then some none else m1.cell y := by
    funext y
    show (if _ then _ else _) = if _ then _ else if _ then _ else _
    by_cases hy : y = .node n
    · rw [if_pos hy, if_pos hy]
    · rw [if_neg hy, if_neg hy]
  obtain ⟨z, hz⟩ := Option.ne_none_iff_exists'.1 hx.2
  have R1 : R c G kd K D f m1 { w with pool := { w.pool with mem := pokeN 1 w.pool.mem (f n + 8 * 0) fun _ => D.enc (F f x.next) } } :=
    h.write hc hn (by unfold nodeWords; omega) _ none rfl rfl rfl rfl (by intro _ e; cases e)
  have fin : ∀ w2, R c G kd K D f m1 w2 → w2.pool.mem (f n) = D.enc (F f x.next) →
      (kd = .doubly → w2.pool.mem (f n + 8) = D.enc (F f x.prev)) →
      R c G kd K D f { m with
        cell := fun y => if y = .node n then some (some x) else m.cell y
        lost := m.lost + (if o.isSome then 1 else 0) }
        { w2 with pool := { w2.pool with mem := pokeN K.words w2.pool.mem (f n + 8 * links kd) (K.enc z) } } := by
    intro w2 hR e1 e2
    refine hR.write hc hn1 (Nat.le_refl _) _ (some x) ?_ rfl rfl rfl ?_
    · funext y
      show (if _ then _ else _) = if _ then _ else if _ then _ else _
      by_cases hy : y = .node n
      · rw [if_pos hy, if_pos hy]
      · rw [if_neg hy, if_neg hy]; exact (if_neg hy).symm
    · intro h' e; cases e
      refine ⟨hx, ?_, ?_, ?_⟩
      · rw [Slots.pokeN_other (by intros; omega)]; exact e1
      · intro e
        subst e
        have hl : links .doubly = 2 := rfl
        rw [Slots.pokeN_other (by intros; omega)]; exact e2 rfl
      · intro y hy j hj
        rw [hz] at hy; cases hy
        exact Slots.pokeN_in hj
  cases kd with
  | singly =>
    have F1 := fin _ R1 (pokeN_one _ _ _) (by intro e; cases e)
    refine ⟨_, ?_, F1⟩
    refine onPool_returns (w := w) (s := ⟨pokeN K.words
      (pokeN 1 w.pool.mem (f n + 8 * 0) (fun _ => D.enc (F f x.next))) (f n + 8 * links .singly) (K.enc z), w.pool.free⟩) ?_
    unfold Returns
    refine (bind_returns (check_ok _ (h.addr hc hn).1)).trans ?_
    refine (bind_returns (savePtr_ok hc h hn (j := 0) nodeWords_pos w.pool _)).trans ?_
    refine (bind_returns (show Returns (Pure.pure ()) _ () _ from rfl)).trans ?_
    have : ∀ (d : Option α) (s : Sma.St), d = some z → (match d with
        | none => Pure.pure ()
        | some x => Pool.save c K (f n + 8 * links .singly) (K.enc x)) s =
        some (.ok ((), { s with mem := pokeN K.words s.mem (f n + 8 * links .singly) (K.enc z) })) := by
      rintro _ s rfl
      exact saveObj_ok hc h hn s _
    exact this x.data _ hz
  | doubly =>
    have h1 : 1 < nodeWords .doubly K := by show 1 < 2 + K.words; omega
    have R2 := R1.write hc hn1 (o := 1) (t := 1) (by omega) (fun _ => D.enc (F f x.prev)) none hidem rfl rfl rfl
      (by intro _ e; cases e)
    have F2 := fin _ R2 (by
      simp only
      rw [Slots.pokeN_other (by intros; omega)]
      exact pokeN_one _ _ _) (fun _ => pokeN_one _ _ _)
    refine ⟨_, ?_, F2⟩
    refine onPool_returns (w := w) (s := ⟨pokeN K.words
      (pokeN 1 (pokeN 1 w.pool.mem (f n + 8 * 0) (fun _ => D.enc (F f x.next))) (f n + 8 * 1)
        (fun _ => D.enc (F f x.prev))) (f n + 8 * links .doubly) (K.enc z), w.pool.free⟩) ?_
    · unfold Returns
      refine (bind_returns (check_ok _ (h.addr hc hn).1)).trans ?_
      refine (bind_returns (savePtr_ok hc h hn (j := 0) nodeWords_pos w.pool _)).trans ?_
      refine (bind_returns (savePtr_ok hc h hn (j := 1) h1 _ _)).trans ?_
      have : ∀ (d : Option α) (s : Sma.St), d = some z → (match d with
          | none => Pure.pure ()
          | some x => Pool.save c K (f n + 8 * links .doubly) (K.enc x)) s =
          some (.ok ((), { s with mem := pokeN K.words s.mem (f n + 8 * links .doubly) (K.enc z) })) := by
        rintro _ s rfl
        exact saveObj_ok hc h hn s _
      exact this x.data _ hz

theorem destroy_sim (hc : Sma.Legal c) (h : R c G kd K D f m w) {p p' : Ptr} (hp : PR f m p p') :
    Sim c G kd K D P f m w (memNodes.destroy p) ((poolNodes md c kd K D).destroy p') Same := by
  refine Sim.act fun m' hr => ?_
  have hr' : p ≠ .null ∧ ∃ x, m.cell p = some (some x) ∧
      m' = { m with cell := fun y => if y = p then some none else m.cell y } := by
    unfold Returns memNodes LL.destroyNode at hr
    simp only at hr
    split at hr
    · cases hr
    · rename_i h0
      split at hr
      · cases hr
      · cases hr
      · rename_i x hx; cases hr; exact ⟨h0, x, hx, rfl⟩
  obtain ⟨h0, x, hk, rfl⟩ := hr'
  obtain ⟨_, rfl⟩ := hp
  refine ⟨rfl, ?_⟩
  cases p with
  | null => exact absurd rfl h0
  | head k =>
    refine ⟨{ w with head := fun y => if y = k then none else w.head y }, ?_, ?_⟩
    · unfold Returns
      exact (bind_returns (getHead_ok h hk)).trans rfl
    · exact h.head (some none) none rfl rfl rfl rfl (by intro _ e; cases e) (fun _ => rfl)
  | node n =>
    have hn : m.cell (.node n) ≠ none := by rw [hk]; simp
    obtain ⟨z, hz⟩ := Option.ne_none_iff_exists'.1 (h.data n x hk)
    refine ⟨_, onPool_returns ?_, h.write hc hn (Nat.le_refl _) (K.fin fun j => w.pool.mem (f n + 8 * links kd + 8 * j))
      none rfl rfl rfl rfl (by intro _ e; cases e)⟩
    unfold Returns
    refine (bind_returns (check_ok _ (h.addr hc hn).1)).trans ?_
    refine (bind_returns (touchObj_ok hc h hn _)).trans ?_
    refine (bind_returns (show Returns Prog.get w.pool w.pool w.pool from rfl)).trans ?_
    refine (bind_returns (check_ok w.pool (Or.inr ?_))).trans ?_
    · rw [K.dec_enc z _ (fun j hj => (h.cells n x hk).2.2 z hz j hj)]; rfl
    · exact saveObj_ok hc h hn w.pool _

theorem free_node (md : Sma.Mode) (c : Sma.Cfg) (kd : Kind) (K : Pool.Layout α) (D : PtrRep) (a : Nat) :
    (poolNodes md c kd K D).free (.node a) =
      onPool (Sma.giveBlock md c a (AllocSpec.byteCount (8 * nodeWords kd K) 1)) := by
  simp only [poolNodes]

theorem free_sim (hc : Sma.Legal c) (hfit : 8 * nodeWords kd K + 8 < 2 ^ 31) (h : R c G kd K D f m w)
    {p p' : Ptr} (hp : PR f m p p') :
    Sim c G kd K D P f m w (memNodes.free p) ((poolNodes md c kd K D).free p') Same := by
  refine Sim.act fun m' hr => ?_
  have hr' : ∃ n o, p = .node n ∧ m.cell p = some o ∧
      m' = { m with cell := fun y => if y = p then none else m.cell y
                    lost := m.lost + (if o.isSome then 1 else 0) } := by
    unfold Returns memNodes LL.freeNode at hr
    simp only at hr
    split at hr
    · rename_i n o ho; cases hr; exact ⟨n, o, rfl, ho, rfl⟩
    · cases hr
  obtain ⟨n, o, rfl, hk, rfl⟩ := hr'
  obtain ⟨_, rfl⟩ := hp
  have hn : m.cell (.node n) ≠ none := by rw [hk]; simp
  obtain ⟨bs, h1, h2⟩ := h.held
  obtain ⟨s', g1, g2, g3⟩ := h1.free hc hfit ((h2 n).2 hn)
  have g1' : Returns ((poolNodes md c kd K D).free (.node (f n))) w () { w with pool := s' } := by
    rw [free_node]
    exact onPool_returns g1
  refine ⟨rfl, { w with pool := s' }, g1', ?_⟩
  refine ⟨?_, ?_, h.oldTail, ?_, ?_, h.sz, h.tail, ⟨_, g2, ?_⟩, ?_, ?_⟩
  · intro x hx
    simp only
    split
    · rfl
    · exact h.fresh x hx
  · intro q x hq
    simp only at hq ⊢
    split at hq
    · cases hq
    · exact h.old q x hq
  · intro k x hx
    simp only at hx
    rw [if_neg (by intro e; cases e)] at hx
    exact h.heads k x hx
  · intro k hx
    simp only at hx
    rw [if_neg (by intro e; cases e)] at hx
    exact h.dead k hx
  · intro x
    rw [h1.nodup.mem_erase_iff, h2]
    simp only
    by_cases e : x = n
    · rw [e, if_pos rfl]
      exact ⟨fun h => absurd rfl h.1, fun h => absurd rfl h⟩
    · rw [if_neg (by intro e'; cases e'; exact e rfl)]
      exact ⟨fun h => h.2, fun h => ⟨e, h⟩⟩
  · intro x y hx
    simp only at hx
    split at hx
    · cases hx
    · exact h.data x y hx
  · intro x y hx
    simp only at hx
    split at hx
    · cases hx
    · rename_i e
      exact (h.cells x y hx).congr (g3 x ((h2 x).2 (by rw [hx]; simp)) (by rintro rfl; exact e rfl))

theorem getSize_sim (h : R c G kd K D f m w) (k : Nat) :
    Sim c G kd K D P f m w (memNodes.getSize k) ((poolNodes md c kd K D).getSize k) Same := by
  refine Sim.read h fun y m' hr => ?_
  obtain ⟨x, m1, r1, r2⟩ := returns_bind (p := LL.get (.head k)) hr
  obtain ⟨rfl, _, hk⟩ := returns_get r1
  cases r2
  refine ⟨rfl, w.sz k, ?_, by rw [h.sz]; rfl⟩
  unfold Returns
  exact (bind_returns (getHead_ok h hk)).trans rfl

theorem getTail_sim (h : R c G kd K D f m w) (k : Nat) :
    Sim c G kd K D P f m w (memNodes.getTail k) ((poolNodes md c kd K D).getTail k) PR := by
  refine Sim.read h fun y m' hr => ?_
  obtain ⟨x, m1, r1, r2⟩ := returns_bind (p := LL.get (.head k)) hr
  obtain ⟨rfl, _, hk⟩ := returns_get r1
  cases r2
  refine ⟨rfl, w.tail k, ?_, h.oldTail k, h.tail k⟩
  unfold Returns
  exact (bind_returns (getHead_ok h hk)).trans rfl

theorem setSize_sim (h : R c G kd K D f m w) (k n : Nat) :
    Sim c G kd K D P f m w (memNodes.setSize k n) ((poolNodes md c kd K D).setSize k n) Same := by
  refine Sim.act fun m' hr => ?_
  obtain ⟨x, m1, r1, r2⟩ := returns_bind (p := LL.get (.head k)) hr
  obtain ⟨rfl, _, hk⟩ := returns_get r1
  cases r2
  refine ⟨rfl, { w with sz := fun x => if x = k then n else w.sz x }, ?_, ?_⟩
  · unfold Returns
    exact (bind_returns (getHead_ok h hk)).trans rfl
  · rw [h.sz]
    exact h.side fun j => ⟨h.oldTail j, h.tail j⟩

theorem setTail_sim (h : R c G kd K D f m w) (k : Nat) {p p' : Ptr} (hp : PR f m p p') :
    Sim c G kd K D P f m w (memNodes.setTail k p) ((poolNodes md c kd K D).setTail k p') Same := by
  refine Sim.act fun m' hr => ?_
  obtain ⟨x, m1, r1, r2⟩ := returns_bind (p := LL.get (.head k)) hr
  obtain ⟨rfl, _, hk⟩ := returns_get r1
  cases r2
  obtain ⟨hp, rfl⟩ := hp
  refine ⟨rfl, { w with tail := fun x => if x = k then F f p else w.tail x }, ?_, ?_⟩
  · unfold Returns
    exact (bind_returns (getHead_ok h hk)).trans rfl
  · have := h.side (sz := m1.sz) (tl := fun x => if x = k then p else m1.tail x)
      (tl' := fun x => if x = k then F f p else w.tail x) (fun j => by
        by_cases e : j = k
        · rw [if_pos e, if_pos e]; exact ⟨hp, rfl⟩
        · rw [if_neg e, if_neg e]; exact ⟨h.oldTail j, h.tail j⟩)
    rw [← h.sz] at this
    refine ⟨this.fresh, this.old, this.oldTail, this.heads, this.dead, h.sz, this.tail, this.held, this.data, this.cells⟩

theorem makeHead_sim (h : R c G kd K D f m w) (k : Nat) (d : Option α) :
    Sim c G kd K D P f m w (memNodes.makeHead k ⟨.null, .null, d⟩)
      ((poolNodes md c kd K D).makeHead k ⟨.null, .null, d⟩) Same := by
  refine Sim.act fun m' hr => ?_
  cases hr
  refine ⟨rfl, _, rfl, h.head _ (some ⟨.null, .null, d⟩) rfl rfl rfl rfl ?_ (by intro e; cases e)⟩
  intro h' e; cases e
  exact ⟨⟨trivial, trivial⟩, rfl⟩

theorem putHead_sim (h : R c G kd K D f m w) (k : Nat) {x : Cell α}
    (hx : Old m.next x.next ∧ Old m.next x.prev) (hk : ∃ y, m.cell (.head k) = some (some y)) :
    Sim c G kd K D P f m w (memNodes.putHead k x) ((poolNodes md c kd K D).putHead k (cmap f x)) Same := by
  refine Sim.act fun m' hr => ?_
  cases hr
  obtain ⟨y, hk⟩ := hk
  refine ⟨rfl, _, rfl, h.head _ (some (cmap f x)) (upd_cell hk _) rfl rfl rfl ?_ (by intro e; cases e)⟩
  intro h' e; cases e
  exact ⟨hx, rfl⟩

theorem dropHead_sim (h : R c G kd K D f m w) (k : Nat) :
    Sim c G kd K D P f m w (memNodes.dropHead k) ((poolNodes md c kd K D).dropHead k) Same := by
  refine Sim.act fun m' hr => ?_
  cases hr
  exact ⟨rfl, _, rfl, h.head none none rfl rfl rfl rfl (by intro _ e; cases e) (fun _ => rfl)⟩

end

end Verif.LPool
