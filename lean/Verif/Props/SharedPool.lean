import Verif.SharedPoolRun
import Verif.SharedPoolNodes
import Verif.Props.DisjointSetPool
import Verif.Props.ListPool
import Verif.Props.TreePool

/-!
# Containers of different classes in one pool (C109)

Vocabulary: `Verif.Spec.SharedPool`.  `Shared.run` works on the bytes of the one static allocator; a
history is judged group by group (`Shared.proj`), by the specifications of the classes, which know
nothing of the other groups.
-/

namespace Verif.Shared

open Prog Vec Pool

variable {n : Nat} {cls : Fin n → Class} {M : ∀ i, Meaning (cls i)} {c : Sma.Cfg}

/-- **C109.**  Let any number of groups of vectors, strings, heaps, stacks, extremum stacks, disjoint
sets, singly and doubly linked lists, queues and stacks over lists, binary search trees, AVL trees, maps and
deques, of any element types, share a fresh pool.  If the operations on each group are legal for that group alone, then every interleaving of
them stops for lack of memory, in an operation that may (`Stops`), or returns; in the latter case the
operations on each group return what they should, and the group is what they make of it and shows it.  The buffers, nodes, blocks and tables of all objects, found by
following their links, lie in the pool, apart from each other and from the free blocks, and
`free_mem_size()` is the size of the pool minus their sizes.  Missing for the full statement: the defective
uses of the classes and the sizes beyond an `int` (`Ok`), and deques whose blocks have a multiple of eight
bytes and can touch (`deque_pool_wrong`). -/
theorem shared_pool_partial (hc : Sma.Legal c) (hM : 2 * c.M + 8 < 2 ^ 31)
    (hcls : ∀ i, Container (cls i) (M i)) {s0 s : Sma.St} (h0 : Returns (Sma.construct c) s0 () s)
    (ops : List (Op cls)) (hl : ∀ i, (M i).Legal (proj i ops) (M i).start) :
    (Faults (run .port c ops) (World.start cls s) .crash ∧ ∃ ops1 o ops2 rs w, ops = ops1 ++ o :: ops2 ∧
      Returns (run .port c ops1) (World.start cls s) rs w ∧ Faults (step .port c o) w .crash ∧
      (M o.group).Stops c (w.view o.group) o.op) ∨
    ∃ rs w, Returns (run .port c ops) (World.start cls s) rs w ∧
      (∀ i, ∃ sp, (M i).Runs (proj i ops) (replies i rs) (M i).start sp ∧ (M i).Shows c (w.view i) sp) ∧
      ∃ bs : Fin n → List Sma.Block, (∀ i, (M i).Uses (w.view i) (bs i)) ∧
        (blocks bs).Pairwise Sma.Disj ∧
        (∀ b ∈ blocks bs, Sma.InPool c b ∧ ∀ f, Sma.FreeBlock c w.pool f → Sma.Disj b f) ∧
        Returns Sma.freeMemSize w.pool ((c.M : Int) - Sma.total (blocks bs)) w.pool := by
  have S : ∀ i, Sound c (cls i) (M i) := fun i => ((hcls i).sound hc hM).some
  rcases Good.run ops (Good.init S h0) hl with h | ⟨rs, w, sp, own, h1, h2, h3⟩
  · exact Or.inl h
  refine Or.inr ⟨rs, w, h1, fun i => ⟨sp i, h2 i, (S i).shows (h3.part i)⟩, ?_⟩
  obtain ⟨bs, g1, L, g2, g3⟩ := h3.uses
  obtain ⟨b1, b2, b3, _⟩ := Sma.sma_blocks_partial hc g2
  refine ⟨bs, fun i => (g1 i).1, ?_, ?_, ?_⟩
  · refine (g3.pairwise_iff (fun {a b} h => disj_symm _ _ h)).2 ?_
    exact List.pairwise_map.2 b2
  · intro b hb
    obtain ⟨p, hp, rfl⟩ := List.mem_map.1 (g3.mem_iff.1 hb)
    exact ⟨(b1 p hp).2.2.2, b3 p hp⟩
  · obtain ⟨⟨L', hL⟩, h4, _⟩ := Sma.sma_accounting hc g2
    obtain ⟨x, e1, e2, _⟩ := h4 L' hL
    rw [Sma.total_perm g3, ← e2]
    exact e1

/-- **C109** (no operation touches another group).  An operation on one group leaves the objects of every
other group as they are, and so the contents of all their buffers and nodes, cell by cell. -/
theorem shared_pool_untouched_partial (hc : Sma.Legal c) (hM : 2 * c.M + 8 < 2 ^ 31)
    (hcls : ∀ i, Container (cls i) (M i)) {s0 s : Sma.St} (h0 : Returns (Sma.construct c) s0 () s)
    (ops : List (Op cls)) (o : Op cls) (hl : ∀ i, (M i).Legal (proj i (ops ++ [o])) (M i).start)
    {rs : List (Reply cls)} {r : (cls o.group).Out} {w w' : World cls}
    (hr : Returns (run .port c ops) (World.start cls s) rs w) (hr' : Returns (step .port c o) w r w') :
    ∃ bs : Fin n → List Sma.Block, (∀ i, (M i).Uses (w.view i) (bs i)) ∧
      ∀ j, j ≠ o.group → w'.part j = w.part j ∧
        ∀ b ∈ bs j, ∀ x, b.1 ≤ x → x < b.1 + b.2 → w'.pool.mem x = w.pool.mem x := by
  have S : ∀ i, Sound c (cls i) (M i) := fun i => ((hcls i).sound hc hM).some
  have split : ∀ i, proj i (ops ++ [o]) = proj i ops ++ proj i [o] := fun i => List.filterMap_append
  have hpre : ∀ (i : Fin n) (a b : List (cls i).Op) (sp : (M i).Spec), (M i).Legal (a ++ b) sp →
      (M i).Legal a sp ∧ ∀ rs t, (M i).Runs a rs sp t → (M i).Legal b t := by
    intro i a
    induction a with
    | nil => rintro b sp h; exact ⟨trivial, by rintro _ _ ⟨_, rfl⟩; exact h⟩
    | cons x a ih =>
      rintro b sp ⟨h1, h2⟩
      exact ⟨⟨h1, fun t ht => (ih b t (h2 t ht)).1⟩, fun rs t ⟨r, rs', u, _, _, h3, h4⟩ => (ih b u (h2 u h3)).2 rs' t h4⟩
  have hl1 : ∀ i, (M i).Legal (proj i ops) (M i).start := fun i => (hpre i _ _ _ (split i ▸ hl i)).1
  rcases Good.run ops (Good.init S h0) hl1 with ⟨h, _⟩ | ⟨_, w1, sp, own, h1, h2, h3⟩
  · unfold Faults Returns at *; rw [h] at hr; cases hr
  obtain ⟨_, rfl⟩ := hr.det h1
  have hok : (M o.group).Ok o.op (sp o.group) := by
    have := (hpre o.group _ _ _ (split o.group ▸ hl o.group)).2 _ _ (h2 o.group)
    rw [show proj o.group [o] = [o.op] from proj_same] at this
    exact this.1
  rcases h3.step hok with ⟨_, h⟩ | ⟨_, w2, x, own', r, _, _, _, h5⟩
  · unfold Faults Returns at *; rw [h] at hr'; cases hr'
  obtain ⟨_, rfl⟩ := hr'.det r
  obtain ⟨bs, g1, _⟩ := h3.uses
  refine ⟨bs, fun i => (g1 i).1, fun j hj => ?_⟩
  obtain ⟨q1, _, q3⟩ := h5 j hj
  refine ⟨q1, fun b hb x x1 x2 => ?_⟩
  obtain ⟨p, hp, rfl⟩ := List.mem_map.1 ((g1 j).2.mem_iff.1 hb)
  exact q3 p hp x x1 x2

/-- Objects that do not exist have no blocks. -/
theorem Container.uses_none {k : Class} {M : Meaning k} (h : Container k M) {s : Sma.St} {o : k.Objs}
    {bs : List Sma.Block} (ho : ∀ i, ¬ k.alive o i) (hu : M.Uses (k.pack s o) bs) : bs = [] := by
  have key : ∀ {size : Nat} {tab : Nat → Option Vec}, (∀ i, tab i = none) → Buffers size tab bs → bs = [] := by
    rintro size tab ht ⟨ks, _, h2, rfl⟩
    have : ks = [] := List.eq_nil_iff_forall_not_mem.2 fun i hi => by
      obtain ⟨v, hv, _⟩ := (h2 i).1 hi
      rw [ht i] at hv
      cases hv
    rw [this]
    rfl
  have trees : ∀ {size : Nat} {E : TPool.PtrRep} {w : TPool.World}, (∀ i, ¬ w.obj i ≠ none) →
      TreeNodes size E w bs → bs = [] := by
    rintro size E w ht ⟨ks, as, _, h2, _, rfl⟩
    have : ks = [] := List.eq_nil_iff_forall_not_mem.2 fun i hi => ht i ((h2 i).1 hi)
    rw [this]
    rfl
  have lists : ∀ {α : Type} {size : Nat} {E : LPool.PtrRep} {w : LPool.PMem α}, (∀ i, ¬ w.head i ≠ none) →
      ListNodes size E w bs → bs = [] := by
    rintro α size E w ht ⟨ks, as, _, h2, _, rfl⟩
    have : ks = [] := List.eq_nil_iff_forall_not_mem.2 fun i hi => ht i ((h2 i).1 hi)
    rw [this]
    rfl
  cases h with
  | deques =>
    obtain ⟨ks, _, h2, rfl⟩ := hu
    have : ks = [] := List.eq_nil_iff_forall_not_mem.2 fun i hi => ho i ((h2 i).1 hi)
    rw [this]
    rfl
  | xstacks =>
    refine key (fun i => ?_) hu
    have := Classical.not_not.1 (ho i)
    show (o i).map _ = none
    rw [this]
    rfl
  | dlists => exact lists (w := ⟨s, o.head, o.sz, o.tail⟩) ho hu
  | queues => exact lists (w := ⟨s, o.head, o.sz, o.tail⟩) ho hu
  | listStacks => exact lists (w := ⟨s, o.head, o.sz, o.tail⟩) ho hu
  | slists => exact lists (w := ⟨s, o.head, o.sz, o.tail⟩) ho hu
  | bsts => exact trees (w := ⟨s, o⟩) ho hu
  | avls => exact trees (w := ⟨s, o⟩) ho hu
  | maps => exact trees (w := ⟨s, o⟩) ho hu
  | _ => exact key (fun i => Classical.not_not.1 (ho i)) hu

/-- **C109** (nothing leaks).  When no object of any group is alive any more, all memory of the pool is
free. -/
theorem shared_pool_returned_partial (hc : Sma.Legal c) (hM : 2 * c.M + 8 < 2 ^ 31)
    (hcls : ∀ i, Container (cls i) (M i)) {s0 s : Sma.St} (h0 : Returns (Sma.construct c) s0 () s)
    (ops : List (Op cls)) (hl : ∀ i, (M i).Legal (proj i ops) (M i).start) {rs : List (Reply cls)} {w : World cls}
    (hr : Returns (run .port c ops) (World.start cls s) rs w) (hend : ∀ i k, ¬ (cls i).alive (w.part i) k) :
    Returns Sma.freeMemSize w.pool (c.M : Int) w.pool := by
  rcases shared_pool_partial hc hM hcls h0 ops hl with ⟨h, _⟩ | ⟨_, w', h1, _, bs, h2, _, _, h3⟩
  · unfold Faults Returns at *; rw [h] at hr; cases hr
  obtain ⟨_, rfl⟩ := hr.det h1
  have : blocks bs = [] := by
    refine List.flatMap_eq_nil_iff.2 fun i _ => ?_
    exact (hcls i).uses_none (hend i) (h2 i)
  rw [this] at h3
  simpa [Sma.total] using h3

/-! ### The hypotheses are met -/

/-- Vectors of `int`, strings of characters, disjoint sets, lists, AVL trees and deques with five elements of 12 bytes per block in
one pool. -/
def six : Fin 6 → Class
  | 0 => vectors intElem
  | 1 => strings charElem 0
  | 2 => disjointSets
  | 3 => dlists natLayout LPool.demoRep none
  | 4 => avls TPool.avlLayout TPool.demoRep AVL.natLt
  | 5 => deques 5 12 (0 : Nat)

def sixMeaning : ∀ i, Meaning (six i)
  | 0 => vectorMeaning intElem
  | 1 => stringMeaning charElem 0
  | 2 => disjointSetMeaning
  | 3 => dlistMeaning natLayout LPool.demoRep none
  | 4 => avlMeaning TPool.avlLayout TPool.demoRep AVL.natLt
  | 5 => dequeMeaning 5 12 (0 : Nat)

theorem six_containers : ∀ i, Container (six i) (sixMeaning i)
  | 0 => .vectors intElem (by decide)
  | 1 => .strings charElem 0 (by decide) rfl
  | 2 => .disjointSets
  | 3 => .dlists natLayout LPool.demoRep none (by decide)
  | 4 => .avls TPool.avlLayout TPool.demoRep AVL.natLt (by decide) AVL.natLt_strictWeak
  | 5 => .deques 5 12 0 (by decide) (by decide) (by decide) (by decide)

/-- Operations on a vector, a string, a disjoint set, a list, a tree and a deque, in turn. -/
def mixed : List (Op six) :=
  [⟨0, (.new 0 : Vec.Op (BitVec 32))⟩, ⟨1, (.new 0 : Str.Op Byte)⟩, ⟨2, (.new 0 3 : DSU.WOp)⟩,
    ⟨3, (.new 0 : DL.Op Nat)⟩, ⟨5, (.new 0 : Deq.Op Nat)⟩, ⟨4, (.new 0 : AVL.Op Nat)⟩, ⟨4, (.push 0 7 : AVL.Op Nat)⟩,
    ⟨0, (.push 0 5 : Vec.Op (BitVec 32))⟩, ⟨3, (.pushBack 0 4 : DL.Op Nat)⟩, ⟨5, (.pushFront 0 9 : Deq.Op Nat)⟩, ⟨2, (.op 0 (.connect 0 1) : DSU.WOp)⟩, ⟨1, (.push 0 65 : Str.Op Byte)⟩,
    ⟨0, (.drop 0 : Vec.Op (BitVec 32))⟩, ⟨4, (.pop 0 7 : AVL.Op Nat)⟩, ⟨3, (.popFront 0 : DL.Op Nat)⟩]

example : ∀ i, (sixMeaning i).Legal (proj i mixed) (sixMeaning i).start := by
  intro i
  match i with
  | 0 =>
    show (vectorMeaning intElem).Legal [.new 0, .push 0 5, .drop 0] (fun _ => none)
    refine ⟨⟨by simp [Vec.specStep], trivial, trivial⟩, ?_⟩
    rintro _ h
    cases h
    refine ⟨⟨by simp [Vec.specStep, Vec.SWorld.put], trivial, trivial⟩, ?_⟩
    rintro _ h
    cases h
    exact ⟨⟨by simp [Vec.specStep, Vec.SWorld.put], trivial, trivial⟩, fun _ _ => trivial⟩
  | 1 =>
    show (stringMeaning charElem 0).Legal [.new 0, .push 0 65] (fun _ => none)
    refine ⟨⟨by simp [Str.specStep], trivial⟩, ?_⟩
    rintro _ h
    cases h
    refine ⟨⟨?_, ?_⟩, fun _ _ => trivial⟩
    · simp [Str.specStep, Str.Spec.put, Str.Fits]
    · intro t ht
      cases ht
      rfl
  | 2 =>
    show disjointSetMeaning.Legal [.new 0 3, .op 0 (.connect 0 1)] (fun _ => none)
    have hnew : ∀ sp, DSU.Legal [.new 0 3] (fun _ => none) sp → sp = DSU.SWorld.put (fun _ => none) 0 (some ⟨3, []⟩) := by
      intro sp h
      cases h with
      | new _ _ _ h => cases h; rfl
    refine ⟨⟨⟨_, .new rfl (by omega) (by omega) (.nil _)⟩, ?_⟩, ?_⟩
    · intro k m h
      simp at h
      omega
    · intro sp h
      rw [hnew sp h]
      refine ⟨⟨⟨_, .op rfl ⟨by decide, by decide⟩ ?_ (.nil _)⟩, ?_⟩, fun _ _ => trivial⟩
      · intro hc
        have := DSUPool.conn_colour id [] (by simp) hc
        simp at this
      · intro k m h
        simp at h
  | 3 =>
    show (dlistMeaning natLayout LPool.demoRep none).Legal [.new 0, .pushBack 0 4, .popFront 0] (fun _ => none)
    refine ⟨⟨by simp [DL.specStep], trivial⟩, ?_⟩
    rintro _ h
    cases h
    refine ⟨⟨by simp [DL.specStep, DL.SWorld.put], trivial⟩, ?_⟩
    rintro _ h
    cases h
    exact ⟨⟨by simp [DL.specStep, DL.SWorld.put], trivial⟩, fun _ _ => trivial⟩
  | 4 =>
    show (avlMeaning TPool.avlLayout TPool.demoRep AVL.natLt).Legal [.new 0, .push 0 7, .pop 0 7] (fun _ => none)
    refine ⟨⟨by simp [AVL.specStep], trivial⟩, ?_⟩
    rintro _ h
    cases h
    refine ⟨⟨by simp [AVL.specStep, AVL.SWorld.put], trivial⟩, ?_⟩
    rintro _ h
    cases h
    refine ⟨⟨by simp [AVL.specStep, AVL.SWorld.put], ?_⟩, fun _ _ => trivial⟩
    simp [AVL.SafeIn, AVL.Safe, AVL.SWorld.put, AVL.with_, AVL.same, AVL.natLt]
  | 5 =>
    show (dequeMeaning 5 12 0).Legal [.new 0, .pushFront 0 9] (fun _ => none)
    refine ⟨⟨by simp [Deq.specStep], trivial⟩, ?_⟩
    rintro _ h
    cases h
    refine ⟨⟨by simp [Deq.specStep, Deq.SWorld.put], ?_⟩, fun _ _ => trivial⟩
    intro t ht
    cases ht
    decide

/-- All groups begin with an object that takes no memory or finds it in the fresh pool: the first
operation that requests storage does not stop the program. -/
example {s0 s : Sma.St} (h0 : Returns (Sma.construct (Sma.defaultSMA 4096)) s0 () s) :
    ∃ rs w, Returns (run .port (Sma.defaultSMA 4096) [(⟨2, (.new 0 3 : DSU.WOp)⟩ : Op six)])
      (World.start six s) rs w := by
  have hl : ∀ i, (sixMeaning i).Legal (proj i [(⟨2, (.new 0 3 : DSU.WOp)⟩ : Op six)]) (sixMeaning i).start := by
    intro i
    match i with
    | 0 => trivial
    | 1 => trivial
    | 3 => trivial
    | 4 => trivial
    | 5 => trivial
    | 2 =>
      refine ⟨⟨⟨_, .new rfl (by omega) (by omega) (.nil _)⟩, ?_⟩, fun _ _ => trivial⟩
      intro k m h
      simp at h
      omega
  rcases shared_pool_partial Sma.defaultSMA_legal (by decide) six_containers h0 _ hl with
    ⟨_, ops1, o, ops2, rs, w, e, r, _, hst⟩ | ⟨rs, w, r, _⟩
  · exfalso
    cases ops1 with
    | nil =>
      cases e
      cases r
      exact fresh_room Sma.defaultSMA_legal h0 (by decide) hst.2
    | cons x ops1 => simp at e
  · exact ⟨rs, w, r⟩

/-- A list and a tree come and go; then all memory is free. -/
def pair : Fin 2 → Class
  | 0 => dlists natLayout LPool.demoRep none
  | 1 => avls TPool.avlLayout TPool.demoRep AVL.natLt

def pairMeaning : ∀ i, Meaning (pair i)
  | 0 => dlistMeaning natLayout LPool.demoRep none
  | 1 => avlMeaning TPool.avlLayout TPool.demoRep AVL.natLt

theorem pair_containers : ∀ i, Container (pair i) (pairMeaning i)
  | 0 => .dlists natLayout LPool.demoRep none (by decide)
  | 1 => .avls TPool.avlLayout TPool.demoRep AVL.natLt (by decide) AVL.natLt_strictWeak

def comeAndGo : List (Op pair) :=
  [⟨0, (.new 0 : DL.Op Nat)⟩, ⟨1, (.new 0 : AVL.Op Nat)⟩, ⟨0, (.drop 0 : DL.Op Nat)⟩, ⟨1, (.drop 0 : AVL.Op Nat)⟩]

example {s0 s : Sma.St} (h0 : Returns (Sma.construct (Sma.defaultSMA 4096)) s0 () s) :
    ∃ rs w, Returns (run .port (Sma.defaultSMA 4096) comeAndGo) (World.start pair s) rs w ∧
      ∀ i k, ¬ (pair i).alive (w.part i) k := by
  have hl : ∀ i, (pairMeaning i).Legal (proj i comeAndGo) (pairMeaning i).start := by
    intro i
    match i with
    | 0 =>
      show (dlistMeaning natLayout LPool.demoRep none).Legal [.new 0, .drop 0] (fun _ => none)
      refine ⟨⟨by simp [DL.specStep], trivial⟩, ?_⟩
      rintro _ h
      cases h
      exact ⟨⟨by simp [DL.specStep, DL.SWorld.put], trivial⟩, fun _ _ => trivial⟩
    | 1 =>
      show (avlMeaning TPool.avlLayout TPool.demoRep AVL.natLt).Legal [.new 0, .drop 0] (fun _ => none)
      refine ⟨⟨by simp [AVL.specStep], trivial⟩, ?_⟩
      rintro _ h
      cases h
      exact ⟨⟨by simp [AVL.specStep, AVL.SWorld.put], trivial⟩, fun _ _ => trivial⟩
  rcases shared_pool_partial Sma.defaultSMA_legal (by decide) pair_containers h0 _ hl with
    ⟨_, ops1, o, ops2, _, w, e, r, _, hst⟩ | ⟨rs, w, r, hs, _⟩
  · exfalso
    have hm : o ∈ comeAndGo := by rw [e]; simp
    simp only [comeAndGo, List.mem_cons, List.not_mem_nil, or_false] at hm
    rcases hm with rfl | rfl | rfl | rfl <;> exact hst
  · refine ⟨rs, w, r, fun i k hk => ?_⟩
    match i with
    | 0 =>
      obtain ⟨sp, ⟨_, _, u, _, _, h1, _, _, v, _, _, h2, _, h3⟩, h4⟩ := hs 0
      cases h1
      cases h2
      cases h3
      refine hk ((h4 k).1 ?_)
      by_cases hk0 : k = 0 <;> simp [DL.SWorld.put, hk0, pairMeaning, dlistMeaning]
    | 1 =>
      obtain ⟨sp, ⟨_, _, u, _, _, h1, _, _, v, _, _, h2, _, h3⟩, h4⟩ := hs 1
      cases h1
      cases h2
      cases h3
      refine hk ((h4 k).1 ?_)
      by_cases hk0 : k = 0 <;> simp [AVL.SWorld.put, hk0, pairMeaning, avlMeaning]

/-- A queue, a list and a stack over a list, all in one pool. -/
def lines : Fin 3 → Class
  | 0 => queues natLayout LPool.demoRep none
  | 1 => dlists natLayout LPool.demoRep none
  | 2 => listStacks natLayout LPool.demoRep none

def linesMeaning : ∀ i, Meaning (lines i)
  | 0 => queueMeaning natLayout LPool.demoRep none
  | 1 => dlistMeaning natLayout LPool.demoRep none
  | 2 => listStackMeaning natLayout LPool.demoRep none

def interleaved : List (Op lines) :=
  [⟨0, (.new 0 : Queue.Op Nat)⟩, ⟨1, (.new 0 : DL.Op Nat)⟩, ⟨0, (.push 0 4 : Queue.Op Nat)⟩,
    ⟨1, (.pushBack 0 5 : DL.Op Nat)⟩, ⟨2, (.new 3 : Stack.Op Nat)⟩,
    ⟨0, (.push 0 6 : Queue.Op Nat)⟩, ⟨2, (.push 3 7 : Stack.Op Nat)⟩, ⟨2, (.push 3 8 : Stack.Op Nat)⟩,
    ⟨0, (.pop 0 : Queue.Op Nat)⟩, ⟨2, (.pop 3 : Stack.Op Nat)⟩]

example : (∀ i, Container (lines i) (linesMeaning i)) ∧
    (∀ i, (linesMeaning i).Legal (proj i interleaved) (linesMeaning i).start) ∧
    (linesMeaning 0).Runs (proj 0 interleaved) [(), (), (), ()] (linesMeaning 0).start
      (Queue.Spec.put (fun _ => none) 0 (some [6])) ∧
    (linesMeaning 2).Runs (proj 2 interleaved) [(), (), (), ()] (linesMeaning 2).start
      (Stack.Spec.put (fun _ => none) 3 (some [7])) := by
  refine ⟨fun i => ?_, fun i => ?_, ?_, ?_⟩
  · match i with
    | 0 => exact .queues natLayout LPool.demoRep none (by decide)
    | 1 => exact .dlists natLayout LPool.demoRep none (by decide)
    | 2 => exact .listStacks natLayout LPool.demoRep none (by decide)
  · match i with
    | 0 =>
      show (queueMeaning natLayout LPool.demoRep none).Legal [.new 0, .push 0 4, .push 0 6, .pop 0] (fun _ => none)
      refine ⟨⟨by simp [Queue.specStep], trivial⟩, ?_⟩
      rintro _ h
      cases h
      refine ⟨⟨by simp [Queue.specStep, Queue.Spec.put], trivial⟩, ?_⟩
      rintro _ h
      cases h
      refine ⟨⟨by simp [Queue.specStep, Queue.Spec.put], trivial⟩, ?_⟩
      rintro _ h
      cases h
      exact ⟨⟨by simp [Queue.specStep, Queue.Spec.put], trivial⟩, fun _ _ => trivial⟩
    | 1 =>
      show (dlistMeaning natLayout LPool.demoRep none).Legal [.new 0, .pushBack 0 5] (fun _ => none)
      refine ⟨⟨by simp [DL.specStep], trivial⟩, ?_⟩
      rintro _ h
      cases h
      exact ⟨⟨by simp [DL.specStep, DL.SWorld.put], trivial⟩, fun _ _ => trivial⟩
    | 2 =>
      show (listStackMeaning natLayout LPool.demoRep none).Legal [.new 3, .push 3 7, .push 3 8, .pop 3] (fun _ => none)
      refine ⟨⟨by simp [Stack.specStep], trivial⟩, ?_⟩
      rintro _ h
      cases h
      refine ⟨⟨by simp [Stack.specStep, Stack.Spec.put], trivial⟩, ?_⟩
      rintro _ h
      cases h
      refine ⟨⟨by simp [Stack.specStep, Stack.Spec.put], trivial⟩, ?_⟩
      rintro _ h
      cases h
      exact ⟨⟨by simp [Stack.specStep, Stack.Spec.put], trivial⟩, fun _ _ => trivial⟩
  · show (queueMeaning natLayout LPool.demoRep none).Runs [.new 0, .push 0 4, .push 0 6, .pop 0] [(), (), (), ()]
      (fun _ => none) _
    refine ⟨(), _, _, rfl, trivial, rfl, (), _, _, rfl, trivial, rfl, (), _, _, rfl, trivial, rfl, (), _, _, rfl, trivial,
      rfl, rfl, ?_⟩
    funext k
    by_cases h : k = 0 <;> simp [Queue.Spec.put, h]
  · show (listStackMeaning natLayout LPool.demoRep none).Runs [.new 3, .push 3 7, .push 3 8, .pop 3] [(), (), (), ()]
      (fun _ => none) _
    refine ⟨(), _, _, rfl, trivial, rfl, (), _, _, rfl, trivial, rfl, (), _, _, rfl, trivial, rfl, (), _, _, rfl, trivial,
      rfl, rfl, ?_⟩
    funext k
    by_cases h : k = 3 <;> simp [Stack.Spec.put, h]

/-- What `[]` returns is settled by the operations on the maps alone. -/
example {K : Pool.Layout (AVL.D (Nat × Nat))} {E : TPool.PtrRep} {rs : List (Option Nat)} {sp : Map.SWorld Nat Nat}
    (h : (mapMeaning K E AVL.natLt 0).Runs [.new 0, .set 0 3 5, .get 0 3, .get 0 4] rs (fun _ => none) sp) :
    rs = [none, none, some 5, some 0] := by
  obtain ⟨_, _, _, rfl, rfl, h1, _, _, _, rfl, rfl, h2, _, _, _, rfl, rfl, h3, _, _, _, rfl, rfl, _, rfl, _⟩ := h
  cases h1
  cases h2
  cases h3
  rfl

end Verif.Shared
