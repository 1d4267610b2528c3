import Verif.Spec.SharedPool
import Verif.HeapPoolWorld
import Verif.StringPoolWorld
import Verif.XStackPoolWorld
import Verif.DisjointSetPoolWorld

/-! Helper lemmas: each class keeps to its own blocks of the pool. -/

namespace Verif.Shared

open Prog Vec Pool

/-- The blocks in other hands are as they were. -/
def Kept (F : Rest) (s : Sma.St) : Prop :=
  ∀ p ∈ F.live, ∀ x, p.1 ≤ x → x < p.1 + Sma.up8 p.2 → s.mem x = F.mem x

/-- The two states agree on the blocks. -/
def Same (own : List (Nat × Int)) (s s' : Sma.St) : Prop :=
  ∀ p ∈ own, ∀ x, p.1 ≤ x → x < p.1 + Sma.up8 p.2 → s'.mem x = s.mem x

/-- What it takes for a class to share the pool. -/
structure Sound (c : Sma.Cfg) (k : Class) (M : Meaning k) where
  Inv : Rest → Sma.St → k.Objs → M.Spec → List (Nat × Int) → Prop
  owned : ∀ {F s o sp own}, Inv F s o sp own → Owned c F own s ∧ Kept F s
  init : ∀ {F s}, Owned c F [] s → Kept F s → Inv F s k.none M.start []
  step : ∀ {F s o sp own op}, Inv F s o sp own → M.Ok op sp →
    (M.Stops c (k.pack s o) op ∧ Faults (k.step .port c op) (k.pack s o) .crash) ∨
    ∃ r w sp' own', Returns (k.step .port c op) (k.pack s o) r w ∧ M.Returned op sp r ∧ M.next op sp sp' ∧
      Inv F (k.pool w) (k.objs w) sp' own'
  reframe : ∀ {F F' s s' o sp own}, Inv F s o sp own → Owned c F' own s' → Kept F' s' → Same own s s' →
    Inv F' s' o sp own
  shows : ∀ {F s o sp own}, Inv F s o sp own → M.Shows c (k.pack s o) sp
  uses : ∀ {F s o sp own}, Inv F s o sp own → ∃ bs, M.Uses (k.pack s o) bs ∧ bs.Perm (Sma.taken own)

section
variable {α : Type} {c : Sma.Cfg} {K : Elem α} {F F' : Rest} {f : Nat → Nat}

/-! ## The blocks of a table of vectors -/

/-- The blocks of the vectors in a table, with the sizes requested. -/
def Tab (size : Nat) (tab : Nat → Option Vec) (own : List (Nat × Int)) : Prop :=
  ∃ ks : List Nat, ks.Nodup ∧ (∀ k, k ∈ ks ↔ ∃ v, tab k = some v ∧ v.cap ≠ 0) ∧
    own.Perm (ks.filterMap fun k => (tab k).map fun v => (v.c, ((size * v.cap : Nat) : Int)))

theorem Tab.uses {size : Nat} {tab : Nat → Option Vec} {own : List (Nat × Int)} (h : Tab size tab own) :
    ∃ bs, Buffers size tab bs ∧ bs.Perm (Sma.taken own) := by
  obtain ⟨ks, h1, h2, h3⟩ := h
  refine ⟨_, ⟨ks, h1, h2, rfl⟩, ?_⟩
  refine List.Perm.trans (.of_eq ?_) (h3.map _).symm
  rw [List.map_filterMap]
  congr 1
  funext k
  cases tab k with
  | none => rfl
  | some v =>
    simp only [Option.map_some, Option.some.injEq, Prod.mk.injEq, true_and, taken8, Sma.up8, Sma.roundUp]
    generalize size * v.cap = z
    omega

theorem Tab.nil {size : Nat} {tab : Nat → Option Vec} (h : ∀ k, tab k = none) : Tab size tab [] :=
  ⟨[], List.nodup_nil, by simp [h], .refl _⟩

theorem tab_ex {tab : Nat → Option Vec} {size : Nat} (h : ∃ ks : List Nat, ks.Nodup ∧ ∀ k, k ∈ ks ↔ tab k ≠ none) :
    ∃ own, Tab size tab own := by
  obtain ⟨ks, h1, h2⟩ := h
  refine ⟨_, ks.filter (fun k => (tab k).any fun v => decide (v.cap ≠ 0)), h1.filter _, fun k => ?_, .refl _⟩
  rw [List.mem_filter, h2]
  cases tab k <;> simp

/-- The blocks of a table are those of the memory it stands for. -/
theorem Tab.perm {w : Vec.World α} {sw : Vec.SWorld α} {pw : PWorld} {own : List (Nat × Int)}
    (hI : Vec.WInv w sw) (h : WR c K F f w pw) (ht : Tab K.size pw.obj own) {bs : List Nat} (h1 : bs.Nodup)
    (h2 : ∀ b, b ∈ bs ↔ w.mem.blk b ≠ none) : own.Perm (bs.map fun b => (f b, blkBytes K w.mem b)) := by
  obtain ⟨ks, k1, k2, k3⟩ := ht
  have get : ∀ k ∈ ks, ∃ u g, w.obj k = some u ∧ u.c ≠ 0 ∧ w.mem.blk u.c = some ⟨u.cap, g⟩ := by
    intro k hk
    obtain ⟨v, hv, h0⟩ := (k2 k).1 hk
    have := h.obj k
    rcases hu : w.obj k with _ | u
    · rw [hv, hu] at this; cases this
    · rw [hv, hu] at this
      cases this
      obtain ⟨s, hs, g1, g2⟩ := WInv.fresh hI hu
      have hc0 : u.c ≠ 0 := by
        intro e
        obtain ⟨rfl, _⟩ := g1.null e
        exact h0 rfl
      obtain ⟨_, _, g, hb, _⟩ := g1.buf hc0
      exact ⟨u, g, rfl, hc0, hb⟩
  have hobj : (ks.filterMap fun k => w.obj k).filter (fun v => decide (v.c ≠ 0)) = ks.filterMap fun k => w.obj k := by
    refine List.filter_eq_self.2 fun v hv => ?_
    obtain ⟨k, hk, e⟩ := List.mem_filterMap.1 hv
    obtain ⟨u, g, e1, e2, _⟩ := get k hk
    rw [e] at e1; cases e1
    simpa using e2
  have hperm : ((ks.filterMap fun k => w.obj k).map fun v => v.c).Perm bs := by
    have hn := objs_nodup hI ks k1
    rw [hobj] at hn
    refine (List.perm_ext_iff_of_nodup hn h1).2 (fun b => ?_)
    rw [h2]
    constructor
    · intro hm
      obtain ⟨v, hv, rfl⟩ := List.mem_map.1 hm
      obtain ⟨k, hk, e⟩ := List.mem_filterMap.1 hv
      obtain ⟨u, g, e1, _, e3⟩ := get k hk
      rw [e] at e1; cases e1
      rw [e3]; simp
    · intro hb
      obtain ⟨k, v, hk, rfl⟩ := hI.owned b hb
      refine List.mem_map.2 ⟨v, List.mem_filterMap.2 ⟨k, (k2 k).2 ⟨vmap f v, by rw [h.obj k, hk]; rfl, ?_⟩, hk⟩, rfl⟩
      obtain ⟨s, hs, g1, _⟩ := WInv.fresh hI hk
      have hc0 : v.c ≠ 0 := by intro e; rw [e] at hb; exact hb hI.wf.null
      exact (g1.buf hc0).1
  refine k3.trans (List.Perm.trans (.of_eq ?_) (hperm.map fun b => (f b, blkBytes K w.mem b)))
  rw [List.map_map]
  clear hperm hobj k3 k1 k2
  induction ks with
  | nil => rfl
  | cons k ks ih =>
    have ih := ih (fun j hj => get j (List.mem_cons_of_mem _ hj))
    obtain ⟨u, g, e1, e2, e3⟩ := get k List.mem_cons_self
    have e : pw.obj k = some (vmap f u) := by rw [h.obj k, e1]; rfl
    rw [List.filterMap_cons_some e1, List.map_cons, ← ih]
    simp [e, blkBytes, e3, bytes, vmap]

theorem WR.own {w : Vec.World α} {sw : Vec.SWorld α} {pw : PWorld} {own : List (Nat × Int)}
    (hI : Vec.WInv w sw) (h : WR c K F f w pw) (ht : Tab K.size pw.obj own) :
    Owned c F own pw.pool ∧ Kept F pw.pool := by
  obtain ⟨bs, h1, h2, h3⟩ := h.mem.held
  exact ⟨h3.perm (ht.perm hI h h1 h2).symm, h.mem.kept⟩

theorem WR.reframe (hc : Sma.Legal c) {w : Vec.World α} {sw : Vec.SWorld α} {pw : PWorld}
    {own : List (Nat × Int)} {s' : Sma.St} (hI : Vec.WInv w sw) (h : WR c K F f w pw) (ht : Tab K.size pw.obj own)
    (h1 : Owned c F' own s') (h2 : Kept F' s') (h3 : Same own pw.pool s') : WR c K F' f w ⟨s', pw.obj⟩ := by
  obtain ⟨bs, b1, b2, _⟩ := h.mem.held
  have hp := ht.perm hI h b1 b2
  refine ⟨⟨h.mem.wf, h.mem.zero, ⟨bs, b1, b2, h1.perm hp⟩, h2, ?_⟩, h.obj⟩
  intro b k i x hk hi hx j hj
  have hm : (f b, bytes K k.len) ∈ own := hp.mem_iff.2 (List.mem_map.2
    ⟨b, (b2 b).2 (by rw [hk]; simp), by simp [blkBytes, hk]⟩)
  obtain ⟨g1, _, g3, _⟩ := h.mem.inPool hc hk
  have hlt : K.size * i + j < K.size * k.len := by
    have : K.size * (i + 1) ≤ K.size * k.len := Nat.mul_le_mul_left _ hi
    rw [Nat.mul_add] at this
    omega
  rw [byteAt_congr g1 g3 hlt (m := pw.pool.mem) (fun x x1 x2 => h3 _ hm x x1 (by rw [up8_bytes]; exact x2))]
  exact h.mem.cells b k i x hk hi hx j hj

theorem WR.fresh {s : Sma.St} (h1 : Owned c F [] s) (h2 : Kept F s) :
    WR c K F id (World.init : Vec.World α) ⟨s, fun _ => none⟩ :=
  ⟨⟨Mem.WF.init, fun _ => Iff.rfl, ⟨[], List.nodup_nil, by simp [World.init, Mem.init], h1⟩, h2,
    fun b k i x hk => by cases hk⟩, fun _ => rfl⟩

/-- The objects alive, in the table and in the specification. -/
theorem fin_tab {w : Vec.World α} {vw : Vec.SWorld α} {pw : PWorld} (hI : Vec.WInv w vw) (h : WR c K F f w pw)
    (hfin : ∃ ks : List Nat, ks.Nodup ∧ ∀ k, k ∈ ks ↔ vw k ≠ none) :
    ∃ ks : List Nat, ks.Nodup ∧ ∀ k, k ∈ ks ↔ pw.obj k ≠ none := by
  obtain ⟨ks, h1, h2⟩ := hfin
  refine ⟨ks, h1, fun k => (h2 k).trans ?_⟩
  rw [h.obj k]
  rcases hk : vw k with _ | t
  · simp [hI.dead k hk]
  · obtain ⟨u, g1, _⟩ := hI.alive k t hk
    simp [g1]

theorem fin_iff {β γ : Type} {a : Nat → Option β} {b : Nat → Option γ} (h : ∀ k, a k ≠ none ↔ b k ≠ none)
    (hf : ∃ ks : List Nat, ks.Nodup ∧ ∀ k, k ∈ ks ↔ a k ≠ none) :
    ∃ ks : List Nat, ks.Nodup ∧ ∀ k, k ∈ ks ↔ b k ≠ none := by
  obtain ⟨ks, h1, h2⟩ := hf
  exact ⟨ks, h1, fun k => (h2 k).trans (h k)⟩

end

/-! ## The classes -/

section
variable {α ι : Type} {c : Sma.Cfg}

/-- A class of tables of vectors that keeps a relation from which a world of vectors in the pool can be
told. -/
def Sound.ofTable {Op : Type} {step : Sma.Mode → Sma.Cfg → Op → Prog PWorld Unit} (hc : Sma.Legal c)
    {β : Type} (K : Elem β) (M : Meaning (ofTable Op step)) (hU : M.Uses = fun w : PWorld => Buffers K.size w.obj)
    (hret : ∀ op sp, M.Returned op sp ())
    (Good : Vec.World β → Vec.SWorld β → M.Spec → Prop)
    (hvec : ∀ {w vw sp}, Good w vw sp → Vec.WInv w vw)
    (hstart : Good World.init (fun _ => none) M.start)
    (hstep : ∀ {F f w vw sp s o op}, Good w vw sp → WR c K F f w ⟨s, o⟩ → M.Ok op sp →
      Finite vw → (M.Stops c ⟨s, o⟩ op ∧ Faults (step .port c op) ⟨s, o⟩ .crash) ∨ ∃ pw' f' w' vw' sp', Returns (step .port c op) ⟨s, o⟩ () pw' ∧
        M.next op sp sp' ∧ Good w' vw' sp' ∧ Finite vw' ∧ WR c K F f' w' pw')
    (hshows : ∀ {F f w vw sp s o}, Good w vw sp → WR c K F f w ⟨s, o⟩ → M.Shows c ⟨s, o⟩ sp) :
    Sound c (ofTable Op step) M where
  Inv := fun F s o sp own => Tab K.size o own ∧ ∃ f w vw, Good w vw sp ∧ Finite vw ∧ WR c K F f w ⟨s, o⟩
  owned := by
    rintro F s o sp own ⟨ht, f, w, vw, hg, _, hW⟩
    exact WR.own (pw := ⟨s, o⟩) (hvec hg) hW ht
  init := by
    intro F s h1 h2
    exact ⟨Tab.nil fun _ => rfl, id, World.init, fun _ => none, hstart, ⟨[], List.nodup_nil, by simp⟩,
      WR.fresh h1 h2⟩
  step := by
    rintro F s o sp own op ⟨ht, f, w, vw, hg, hfin, hW⟩ hok
    rcases hstep hg hW hok hfin with h | ⟨pw', f', w', vw', sp', h1, h2, h3, h4, h5⟩
    · exact Or.inl h
    · obtain ⟨own', ht'⟩ := tab_ex (size := K.size) (fin_tab (hvec h3) h5 h4)
      exact Or.inr ⟨(), pw', sp', own', h1, hret _ _, h2, ht', f', w', vw', h3, h4, h5⟩
  reframe := by
    rintro F F' s s' o sp own ⟨ht, f, w, vw, hg, hfin, hW⟩ h1 h2 h3
    exact ⟨ht, f, w, vw, hg, hfin, WR.reframe (pw := ⟨s, o⟩) hc (hvec hg) hW ht h1 h2 h3⟩
  shows := by
    rintro F s o sp own ⟨ht, f, w, vw, hg, hfin, hW⟩
    exact hshows hg hW
  uses := by
    rintro F s o sp own ⟨ht, _⟩
    rw [hU]
    exact ht.uses

/-- The condition of the simulation in the words of the specification. -/
theorem noSpace {K : Elem α} {s : Sma.St} {n : Nat} (h : Short c K s n) : NoSpace c K.size s n :=
  ⟨h.1, (full_iff s n).1 h.2⟩

theorem tab_get {K : Elem α} {F : Rest} {f : Nat → Nat} {w : Vec.World α} {pw : PWorld} (h : WR c K F f w pw)
    {k : Nat} {v : Vec} (hv : w.obj k = some v) : pw.obj k = some (vmap f v) := by rw [h.obj k, hv]; rfl

/-- The vector of an object of the specification. -/
theorem spec_get {K : Elem α} {F : Rest} {f : Nat → Nat} {w : Vec.World α} {vw : Vec.SWorld α} {pw : PWorld}
    (hI : Vec.WInv w vw) (h : WR c K F f w pw) {k : Nat} {t : SVec α} (ht : vw k = some t) :
    ∃ v, pw.obj k = some v ∧ v.sz = t.data.length ∧ v.cap = t.cap := by
  obtain ⟨v, g1, g2, g3⟩ := hI.alive k t ht
  exact ⟨vmap f v, tab_get h g1, g2.size, g3⟩

/-- A vector in the pool has room for its elements. -/
theorem size_le (hc : Sma.Legal c) {K : Elem α} {F : Rest} {f : Nat → Nat} {w : Vec.World α} {vw : Vec.SWorld α}
    {pw : PWorld} (hI : Vec.WInv w vw) (h : WR c K F f w pw) {k : Nat} {v : Vec} (hv : pw.obj k = some v) :
    v.sz ≤ v.cap := by
  rw [h.obj k] at hv
  rcases hu : w.obj k with _ | u
  · rw [hu] at hv; cases hv
  · rw [hu] at hv
    cases hv
    obtain ⟨t, _, g1, _⟩ := WInv.fresh hI hu
    have := (cap_pool hc h.mem g1).2
    show u.sz ≤ u.cap
    rw [g1.size]
    exact this

theorem ne_none {β : Type} {x : Option β} (h : x ≠ none) : ∃ y, x = some y := by
  cases x with
  | none => exact absurd rfl h
  | some y => exact ⟨y, rfl⟩

def vectorSound (hc : Sma.Legal c) (hM : 2 * c.M + 8 < 2 ^ 31) (K : Elem α) (hK : 2 * K.size + 8 < 2 ^ 31) :
    Sound c (vectors K) (vectorMeaning K) :=
  Sound.ofTable hc K (vectorMeaning K) rfl (fun _ _ => trivial) (fun w vw sp => Vec.WInv w vw ∧ vw = sp) (fun h => h.1)
    ⟨Vec.WInv.init, rfl⟩
    (by
      rintro F f w vw sp s o op ⟨hI, rfl⟩ hW ⟨h1, h2, h3⟩ hfin
      obtain ⟨sp', hs⟩ := ne_none h1
      obtain ⟨_, w1, r1, hI1⟩ := Vec.step_ok (triv := K.triv) hI hs h2
      rcases step_pool hc hM hK hI hW h3 r1 with ⟨hl, hf⟩ | ⟨pw1, f1, e1, e2⟩
      · refine Or.inl ⟨?_, hf⟩
        show vectorStops K c ⟨s, o⟩ op
        cases op <;> simp only [Pool.Lacks] at hl <;> simp only [vectorStops]
        case newFill => exact noSpace hl
        case resize => exact noSpace hl
        case resizeFill => exact noSpace hl
        case push =>
          obtain ⟨t, q1, q2, q3⟩ := hl
          obtain ⟨v, g1, g2, g3⟩ := spec_get hI hW q1
          exact ⟨v, g1, by omega, by rw [g2]; exact noSpace q3⟩
        case pushElem =>
          obtain ⟨t, q1, q2, q3⟩ := hl
          obtain ⟨v, g1, g2, g3⟩ := spec_get hI hW q1
          exact ⟨v, g1, by omega, by rw [g2]; exact noSpace q3⟩
        case pop =>
          obtain ⟨t, q1, q2, q3⟩ := hl
          obtain ⟨v, g1, g2, g3⟩ := spec_get hI hW q1
          exact ⟨v, g1, by rw [g2, g3]; exact q2⟩
        case copy =>
          obtain ⟨q0, t, q1, q2⟩ := hl
          obtain ⟨v, g1, g2, g3⟩ := spec_get hI hW q1
          exact ⟨q0, v, g1, by rw [g3]; exact q2⟩
      · exact Or.inr ⟨pw1, f1, w1, sp', sp', e1, hs, ⟨hI1, rfl⟩, hfin.step hs, e2⟩)
    (by
      rintro F f w vw sp s o ⟨hI, rfl⟩ hW
      exact WR.shows hc hW hI)

def stringSound [DecidableEq α] (hc : Sma.Legal c) (hM : 2 * c.M + 8 < 2 ^ 31) (K : Elem α) (nul : α)
    (hK : 15 * K.size + 8 < 2 ^ 31) (ht : K.triv = true) : Sound c (strings K nul) (stringMeaning K nul) :=
  Sound.ofTable hc K (stringMeaning K nul) rfl (fun _ _ => trivial)
    (fun w vw sp => Vec.WInv w vw ∧ Str.Abs nul vw sp ∧ SPool.Finite sp) (fun h => h.1)
    ⟨Vec.WInv.init, fun _ => ⟨fun _ => rfl, fun _ h => by cases h⟩, [], List.nodup_nil, by simp [stringMeaning]⟩
    (by
      rintro F f w vw sp s o op ⟨hI, habs, hf⟩ hW ⟨h1, h2⟩ _
      obtain ⟨sp', hs⟩ := ne_none h1
      obtain ⟨_, w1, r1, vw1, hI1, ha1⟩ := Str.step_refines ⟨vw, hI, habs⟩ hs h2
      rcases SPool.step_sim ht hc hM hK hI habs hW hs h2 r1 with ⟨hl, hf⟩ | ⟨pw1, f1, e1, e2⟩
      · refine Or.inl ⟨?_, hf⟩
        show stringStops ⟨s, o⟩ op
        cases op <;> simp only [SPool.Lacks] at hl <;> simp only [stringStops]
        case push => obtain ⟨v, q1, q2⟩ := hl; exact ⟨_, tab_get hW q1, q2⟩
        case pushElem => obtain ⟨v, q1, q2⟩ := hl; exact ⟨_, tab_get hW q1, q2⟩
        case append =>
          obtain ⟨v, u, q1, q2, q3⟩ := hl
          exact ⟨_, _, tab_get hW q1, tab_get hW q2, q3⟩
      · refine Or.inr ⟨pw1, f1, w1, vw1, sp', e1, hs, ⟨hI1, ha1, hf.step hs⟩, fin_iff (fun k => ?_) (hf.step hs), e2⟩
        rcases hk : sp' k with _ | t
        · simp [(ha1 k).1 hk]
        · obtain ⟨u, g, _⟩ := (ha1 k).2 t hk
          simp [g])
    (by
      rintro F f w vw sp s o ⟨hI, habs, hf⟩ hW
      exact SPool.St.shows hc ⟨⟨f, w, vw, hI, habs, hW⟩, hf⟩)

def heapSound (hc : Sma.Legal c) (hM : 2 * c.M + 8 < 2 ^ 31) (K : Elem α) (R : α → α → Prop)
    (cmp : α → α → Bool) (hK : 2 * K.size + 8 < 2 ^ 31) (ho : Heap.Order R cmp) :
    Sound c (heaps K cmp) (heapMeaning K R cmp) :=
  Sound.ofTable hc K (heapMeaning K R cmp) rfl (fun _ _ => trivial)
    (fun w vw sp => Vec.WInv w vw ∧ Heap.Abs R vw sp ∧ ∃ ks : List Nat, ks.Nodup ∧ ∀ k, k ∈ ks ↔ sp k ≠ none)
    (fun h => h.1)
    ⟨Vec.WInv.init, Heap.Abs.init R, [], List.nodup_nil, by simp [heapMeaning]⟩
    (by
      rintro F f w vw sp s o op ⟨hI, habs, hf⟩ hW ⟨h1, h2, h3⟩ _
      have hpre := HPool.pre_of_allowed hc hM hI habs hW h1 h3
      obtain ⟨_, w1, r1, vw1, sw1, hI1, ha1, hs1⟩ := Heap.step_refines ho (triv := K.triv) hI habs hpre h2
      rcases HPool.step_sim hc hM hK hI habs hW hpre h3 r1 with ⟨hl, hf⟩ | ⟨pw1, f1, e1, e2⟩
      · refine Or.inl ⟨?_, hf⟩
        show heapStops K c ⟨s, o⟩ op
        cases op <;> simp only [HPool.Lacks] at hl <;> simp only [heapStops]
        case new => exact noSpace hl
        case newMove => exact noSpace hl
        case push =>
          obtain ⟨v, q1, q2, q3⟩ := hl
          have := size_le hc hI hW (tab_get hW q1)
          exact ⟨_, tab_get hW q1, Nat.le_antisymm this (Nat.le_of_lt_succ q2), noSpace q3⟩
        case pop => obtain ⟨v, q1, q2⟩ := hl; exact ⟨_, tab_get hW q1, q2⟩
      · have hf1 := HPool.finite_step hf hs1
        refine Or.inr ⟨pw1, f1, w1, vw1, sw1, e1, hs1, ⟨hI1, ha1, hf1⟩, fin_iff (fun k => ?_) hf1, e2⟩
        rcases hk : sw1 k with _ | t
        · simp [ha1.dead k hk]
        · obtain ⟨u, g, _⟩ := ha1.alive k t hk
          simp [g])
    (by
      rintro F f w vw sp s o ⟨hI, habs, hf⟩ hW
      exact HPool.St.shows hc ho ⟨⟨f, w, vw, hI, habs, hW⟩, hf⟩)

def stackSound (hc : Sma.Legal c) (hM : 2 * c.M + 8 < 2 ^ 31) (K : Elem α) (hK : 2 * K.size + 8 < 2 ^ 31) :
    Sound c (stackClass K) (stackMeaning K) :=
  Sound.ofTable hc K (stackMeaning K) rfl (fun _ _ => trivial)
    (fun w vw sp => Vec.WInv w vw ∧ Stack.Abs vw sp ∧ ∃ ks : List Nat, ks.Nodup ∧ ∀ k, k ∈ ks ↔ sp k ≠ none)
    (fun h => h.1)
    ⟨Vec.WInv.init, fun _ => rfl, [], List.nodup_nil, by simp [stackMeaning]⟩
    (by
      rintro F f w vw sp s o op ⟨hI, habs, hf⟩ hW ⟨h1, h2⟩ _
      obtain ⟨sp', hs⟩ := ne_none h1
      obtain ⟨_, w1, r1, vw1, hI1, ha1⟩ := Stack.step_refines (triv := K.triv) hI habs hs h2
      rcases XPool.stackStep_sim hc hM hK hI hW r1 with ⟨hl, hf⟩ | ⟨pw1, f1, e1, e2⟩
      · refine Or.inl ⟨?_, hf⟩
        show stackStops K c ⟨s, o⟩ op
        cases op <;> simp only at hl <;> simp only [stackStops]
        case push =>
          obtain ⟨v, q1, q2, q3⟩ := hl
          have := size_le hc hI hW q1
          exact ⟨_, q1, by omega, noSpace q3⟩
        case pop => exact hl
      · have hf1 := XPool.stack_finite hf hs
        refine Or.inr ⟨pw1, f1, w1, vw1, sp', e1, hs, ⟨hI1, ha1, hf1⟩, fin_iff (fun k => ?_) hf1, e2⟩
        rw [ha1 k]
        cases vw1 k <;> simp)
    (by
      rintro F f w vw sp s o ⟨hI, habs, hf⟩ hW
      exact XPool.StackSt.shows hc ⟨⟨f, w, vw, hI, habs, hW⟩, hf⟩)

/-- Disjoint sets are stored as words. -/
def disjointSetSound (hc : Sma.Legal c) (hM : 2 * c.M + 8 < 2 ^ 31) : Sound c disjointSets disjointSetMeaning :=
  Sound.ofTable hc intElem disjointSetMeaning rfl (fun _ _ => trivial)
    (fun wB vB sp => Vec.WInv wB vB ∧ ∃ w vw, DSU.WInv w vw sp ∧ vB = DSUPool.mapW vw ∧
      ∃ ks : List Nat, ks.Nodup ∧ ∀ k, k ∈ ks ↔ sp k ≠ none)
    (fun h => h.1)
    ⟨Vec.WInv.init, World.init, fun _ => none, DSU.WInv.init, rfl, [], List.nodup_nil, by simp [disjointSetMeaning]⟩
    (by
      rintro F f wB vB sp s o op ⟨hB, w, vw, hI, rfl, hf⟩ hW ⟨⟨sp', h1⟩, h2⟩ _
      rcases DSUPool.wstep_pool hc hM h1 h2 ⟨⟨f, w, vw, wB, hI, hB, hW⟩, hf⟩ with ⟨hl, hf⟩ | ⟨pw1, e1, ⟨⟨f1, w1, vw1, wB1, hI1, hB1, hW1⟩, hf1⟩⟩
      · refine Or.inl ⟨?_, hf⟩
        show disjointSetStops c ⟨s, o⟩ op
        cases op <;> simp only [DSUPool.DLacks] at hl <;> simp only [disjointSetStops]
        case new => exact noSpace (K := intElem) hl
        case newCopy => obtain ⟨u, q1, q2⟩ := hl; exact ⟨u, q1, noSpace (K := intElem) q2⟩
        case copy => exact hl
      · refine Or.inr ⟨pw1, f1, wB1, DSUPool.mapW vw1, sp', e1, h1, ⟨hB1, w1, vw1, hI1, rfl, hf1⟩, fin_iff (fun k => ?_) hf1, hW1⟩
        rcases hk : sp' k with _ | t
        · simp [DSUPool.mapW, hI1.dead k hk]
        · obtain ⟨u, _, g, _⟩ := hI1.alive k t hk
          simp [DSUPool.mapW, g])
    (by
      rintro F f wB vB sp s o ⟨hB, w, vw, hI, rfl, hf⟩ hW
      exact DSUPool.PSt.shows hc ⟨⟨f, w, vw, wB, hI, hB, hW⟩, hf⟩)

def xstackSound [DecidableEq α] (hc : Sma.Legal c) (hM : 2 * c.M + 8 < 2 ^ 31) (K : Elem α)
    (R : ι → α → α → Prop) (cmp : ι → α → α → Bool) (gone : α → α) (hK : 2 * K.size + 8 < 2 ^ 31)
    (ho : ∀ i, Heap.Order (R i) (cmp i)) : Sound c (xstacks ι K cmp gone) (xstackMeaning K R cmp gone) where
  Inv := fun F s o sp own => Tab K.size (fun k => (o k).map fun v => v.o.st) own ∧ XPool.St c K F cmp ⟨s, o⟩ sp
  owned := by
    rintro F s o sp own ⟨ht, ⟨f, w, vw, hI, hW⟩, _⟩
    exact WR.own hI.vec hW.vecs ht
  init := by
    intro F s h1 h2
    exact ⟨Tab.nil fun _ => rfl, ⟨id, XStack.World.init, fun _ => none, XStack.WInv.init,
      (WR.fresh h1 h2).mem, fun _ => rfl⟩, [], List.nodup_nil, by simp [xstackMeaning]⟩
  step := by
    rintro F s o sp own op ⟨ht, ⟨f, w, vw, hI, hW⟩, hfin⟩ ⟨h1, h2⟩
    obtain ⟨sp', hs⟩ := ne_none h1
    obtain ⟨_, w1, r1, vw1, hI1⟩ := XStack.wstep_ok ho (triv := K.triv) (gone := gone) hI hs h2
    rcases XPool.wstep_sim hc hM hK hI hW hs r1 with ⟨hl, hf⟩ | ⟨pw1, f1, e1, e2⟩
    · refine Or.inl ⟨?_, hf⟩
      show xstackStops K cmp c ⟨s, o⟩ op
      cases op with
      | op k p =>
        cases p with
        | push x =>
          obtain ⟨v, q1, q2⟩ := hl
          have := size_le hc hI.vec hW.vecs (k := k) (v := v.o.st) (by
            show (o k).map _ = _
            rw [show o k = some v from q1]; rfl)
          exact ⟨v, q1, q2.imp_left fun h => ⟨by omega, noSpace h.2⟩⟩
        | pop => exact hl
        | clear => exact hl.elim
      | copy => trivial
      | new => exact hl.elim
      | move => exact hl.elim
      | drop => exact hl.elim
    · have hf1 := XPool.x_finite hfin hs
      have hvw : ∀ k, sp' k ≠ none ↔ vw1 k ≠ none := by
        intro k
        rcases hk : sp' k with _ | t
        · simp [hI1.dead k hk]
        · obtain ⟨_, t, _, _, _, g, _⟩ := hI1.alive k t hk
          simp [g]
      obtain ⟨own', ht'⟩ := tab_ex (size := K.size) (fin_tab hI1.vec e2.vecs (fin_iff hvw hf1))
      exact Or.inr ⟨(), pw1, sp', own', e1, trivial, hs, ht', ⟨f1, w1, vw1, hI1, e2⟩, hf1⟩
  reframe := by
    rintro F F' s s' o sp own ⟨ht, ⟨f, w, vw, hI, hW⟩, hfin⟩ h1 h2 h3
    exact ⟨ht, ⟨f, w, vw, hI, (WR.reframe hc hI.vec hW.vecs ht h1 h2 h3).mem, hW.obj⟩, hfin⟩
  shows := by
    rintro F s o sp own ⟨_, h⟩
    exact XPool.St.shows hc ho h
  uses := by
    rintro F s o sp own ⟨ht, _⟩
    exact ht.uses

end

end Verif.Shared
