import Verif.XStackPoolSim
import Verif.Spec.XStackPool
import Verif.Props.VectorPool

/-! Helper lemmas: worlds of stacks in the static pool. -/

namespace Verif.XPool

open Prog Vec Pool
open XStack (XS Obj WOp SObj)

variable {α ι : Type} {c : Sma.Cfg} {K : Elem α} {F : Rest}

/-! ## What a world of vectors in the pool shows, by their capacities -/

theorem placed_vec (hc : Sma.Legal c) {f : Nat → Nat} {w : World α} {vw : SWorld α} {pw : PWorld}
    (hI : Vec.WInv w vw) (hW : WR c K F f w pw) : Placed c K.size pw.pool pw.obj := by
  have hvec : ∀ {k v}, pw.obj k = some v → ∃ t, vw k = some t ∧ t.cap = v.cap := by
    intro k v hv
    rcases hk : vw k with _ | t
    · rw [hW.obj k, hI.dead k hk] at hv; cases hv
    · obtain ⟨u, g1, g2, g3⟩ := hI.alive k t hk
      rw [hW.obj k, g1] at hv
      cases hv
      exact ⟨t, rfl, g3.symm⟩
  intro k v hv h0
  obtain ⟨t, ht, e⟩ := hvec hv
  obtain ⟨g1, g2, g3⟩ := hW.placed hc hI k v t hv ht (by rw [e]; exact h0)
  unfold storageBytes at g1 g2 g3
  rw [e] at g1 g2 g3
  refine ⟨g1, ?_, g3⟩
  intro j u hj hu hu0
  obtain ⟨t', ht', e'⟩ := hvec hu
  have := g2 j u t' hj hu ht' (by rw [e']; exact hu0)
  rw [e'] at this
  exact this

theorem accounted_vec (hc : Sma.Legal c) {f : Nat → Nat} {w : World α} {vw : SWorld α} {pw : PWorld}
    (hI : Vec.WInv w vw) (hW : WR c K .nil f w pw) (hfin : Finite vw) :
    Accounted c K.size pw.pool pw.obj (fun k => vw k ≠ none) := by
  obtain ⟨ks, h1, h2⟩ := hfin
  refine ⟨ks, h1, h2, ?_⟩
  have := hW.free hc hI ks h1 h2
  have e : ∀ l : List Nat, (∀ k ∈ l, vw k ≠ none) → storageSum K.size vw l = storage K.size pw.obj l := by
    intro l
    induction l with
    | nil => intro _; rfl
    | cons k l ih =>
      intro hl
      have ih := ih (fun k hk => hl k (List.mem_cons_of_mem _ hk))
      rcases hk : vw k with _ | t
      · exact absurd hk (hl k List.mem_cons_self)
      · obtain ⟨v, g1, g2, g3⟩ := hI.alive k t hk
        have : pw.obj k = some (vmap f v) := by rw [hW.obj k, g1]; rfl
        simp only [storageSum, storage, hk, this, ih, storageBytes, block]
        rw [← g3]; rfl
  rw [e ks (fun k hk => (h2 k).1 hk)] at this
  exact this

/-! ## `Stack` -/

/-- A push that needs more storage and does not get it. -/
theorem push_faults {v : Vec} {s : Sma.St} {x : α} (h : v.sz + 1 > v.cap)
    (hal : Faults ((poolOps .port c K).alloc (max 2 (2 * v.sz))) s .crash) :
    Faults (stPush (poolOps .port c K) v x) s .crash := by
  unfold stPush Pool.pushBack
  rw [if_pos h]
  by_cases h0 : v.sz = 0
  · rw [if_neg (by simp [h0])]
    rw [h0] at hal
    apply bind_faults
    unfold Pool.resize
    rw [if_neg (by simp)]
    exact bind_faults hal
  · have e : max 2 (2 * v.sz) = 2 * v.sz := by omega
    rw [e] at hal
    rw [if_pos h0]
    apply bind_faults
    unfold Pool.resize
    rw [if_neg (by omega)]
    exact bind_faults hal


theorem stackStep_sim (hc : Sma.Legal c) (hM : 2 * c.M + 8 < 2 ^ 31) (hK : 2 * K.size + 8 < 2 ^ 31)
    {op : Stack.Op α} {f : Nat → Nat} {w w' : World α} {vw : SWorld α} {pw : PWorld}
    (hI : Vec.WInv w vw) (h : WR c K F f w pw) (hr : Returns (Stack.step K.triv op) w () w') :
    StepSim c K F (match op with
      | .push k _ => ∃ v, pw.obj k = some v ∧ v.cap < v.sz + 1 ∧ Short c K pw.pool (max 2 (2 * v.sz))
      | .pop k => ∃ v, pw.obj k = some v ∧ v.sz - 1 < v.cap / 3
      | .copy _ _ => True
      | _ => False) f pw w' (stackStep .port c K op) := by
  have ho := WInv.old hI
  cases op with
  | new k => exact (step_pool hc hM hK hI h (show Pool.Sized K.size (.new k : Vec.Op α) from trivial) hr).mono id
  | push k x =>
    obtain ⟨v, hv, hr⟩ := getObj_bind hr
    obtain ⟨t, ht, h2, h3⟩ := WInv.fresh hI hv
    refine StepSim.getObj h hv ((store_sim h ho (stPush_sim hc hM hK h.mem h2 x) hr).mono
      (fun g => ⟨vmap f v, by rw [h.obj k, hv]; rfl, g⟩))
  | pop k =>
    obtain ⟨v, hv, hr⟩ := getObj_bind hr
    obtain ⟨t, ht, h2, h3⟩ := WInv.fresh hI hv
    refine StepSim.getObj h hv ((store_sim h ho (stPop_sim hc hM h.mem h2) hr).mono
      (fun g => ⟨vmap f v, by rw [h.obj k, hv]; rfl, g⟩))
  | clear k =>
    exact (step_pool hc hM hK hI h (show Pool.Sized K.size (.clear k : Vec.Op α) from trivial) hr).mono id
  | copy d s =>
    exact (step_pool hc hM hK hI h (show Pool.Sized K.size (.copy d s : Vec.Op α) from trivial) hr).mono
      (fun _ => trivial)
  | move d s =>
    exact (step_pool hc hM hK hI h (show Pool.Sized K.size (.move d s : Vec.Op α) from trivial) hr).mono id
  | drop k =>
    exact (step_pool hc hM hK hI h (show Pool.Sized K.size (.drop k : Vec.Op α) from trivial) hr).mono id

/-- A state of the pool that stacks have brought about. -/
structure StackSt (c : Sma.Cfg) (K : Elem α) (F : Rest) (pw : PWorld) (sw : Stack.Spec α) : Prop where
  ex : ∃ f w vw, Vec.WInv w vw ∧ Stack.Abs vw sw ∧ WR c K F f w pw
  fin : ∃ ks : List Nat, ks.Nodup ∧ ∀ k, k ∈ ks ↔ sw k ≠ none

theorem finite_put {β : Type} {w : Nat → Option β} (k : Nat) (v : Option β)
    (h : ∃ ks : List Nat, ks.Nodup ∧ ∀ k, k ∈ ks ↔ w k ≠ none) :
    ∃ ks : List Nat, ks.Nodup ∧ ∀ j, j ∈ ks ↔ (if j = k then v else w j) ≠ none := by
  obtain ⟨ks, h1, h2⟩ := h
  have hmem : ∀ x, x ∈ ks.erase k ↔ x ≠ k ∧ x ∈ ks := fun x => h1.mem_erase_iff
  cases v with
  | none =>
    refine ⟨ks.erase k, h1.erase k, fun x => ?_⟩
    rw [hmem, h2]
    by_cases hx : x = k <;> simp [hx]
  | some v =>
    refine ⟨k :: ks.erase k, List.nodup_cons.2 ⟨fun h => ((hmem k).1 h).1 rfl, h1.erase k⟩, fun x => ?_⟩
    rw [List.mem_cons, hmem, h2]
    by_cases hx : x = k <;> simp [hx]

theorem stack_finite {sw sw' : Stack.Spec α} {op : Stack.Op α}
    (h : ∃ ks : List Nat, ks.Nodup ∧ ∀ k, k ∈ ks ↔ sw k ≠ none) (hs : Stack.specStep op sw = some sw') :
    ∃ ks : List Nat, ks.Nodup ∧ ∀ k, k ∈ ks ↔ sw' k ≠ none := by
  cases op with
  | new k =>
    simp only [Stack.specStep] at hs
    split at hs
    · cases hs; exact finite_put _ _ h
    · cases hs
  | push k x =>
    obtain ⟨_, _, hs⟩ := Option.bind_eq_some_iff.1 hs
    cases hs; exact finite_put _ _ h
  | pop k =>
    simp only [Stack.specStep] at hs
    split at hs
    · cases hs; exact finite_put _ _ h
    · cases hs
  | clear k =>
    obtain ⟨_, _, hs⟩ := Option.bind_eq_some_iff.1 hs
    cases hs; exact finite_put _ _ h
  | copy d s =>
    obtain ⟨_, _, hs⟩ := Option.bind_eq_some_iff.1 hs
    obtain ⟨_, _, hs⟩ := Option.bind_eq_some_iff.1 hs
    cases hs; exact finite_put _ _ h
  | move d s =>
    obtain ⟨_, _, hs⟩ := Option.bind_eq_some_iff.1 hs
    obtain ⟨_, _, hs⟩ := Option.bind_eq_some_iff.1 hs
    split at hs
    · cases hs; exact h
    · cases hs; exact finite_put _ _ (finite_put _ _ h)
  | drop k =>
    obtain ⟨_, _, hs⟩ := Option.bind_eq_some_iff.1 hs
    cases hs; exact finite_put _ _ h

theorem stackRun_pool (hc : Sma.Legal c) (hM : 2 * c.M + 8 < 2 ^ 31) (hK : 2 * K.size + 8 < 2 ^ 31)
    (ops : List (Stack.Op α)) {pw : PWorld} {sw sw' : Stack.Spec α} (h : StackSt c K F pw sw)
    (hs : Stack.specRun ops sw = some sw') (ha : Stack.AvoidsAll K.triv ops sw) :
    Faults (stackRun .port c K ops) pw .crash ∨
      ∃ pw', Returns (stackRun .port c K ops) pw () pw' ∧ StackSt c K F pw' sw' := by
  induction ops generalizing pw sw with
  | nil => cases hs; exact Or.inr ⟨pw, rfl, h⟩
  | cons op ops ih =>
    obtain ⟨⟨f, w, vw, hI, habs, hW⟩, hfin⟩ := h
    obtain ⟨sw1, hs1, hs2⟩ := Option.bind_eq_some_iff.1 hs
    obtain ⟨_, w1, r1, vw1, hI1, ha1⟩ := Stack.step_refines (triv := K.triv) hI habs hs1 ha.1
    rcases stackStep_sim hc hM hK hI hW r1 with ⟨_, hf⟩ | ⟨pw1, f1, e1, e2⟩
    · exact Or.inl (bind_faults hf)
    · have er : stackRun .port c K (op :: ops) pw = stackRun .port c K ops pw1 := bind_returns e1
      have := ih ⟨⟨f1, w1, vw1, hI1, ha1, e2⟩, stack_finite hfin hs1⟩ hs2 (ha.2 sw1 hs1)
      unfold Faults Returns at *
      rw [er]
      exact this

theorem StackSt.init {s0 s : Sma.St} (h : Returns (Sma.construct c) s0 () s) :
    StackSt c K .nil ⟨s, fun _ => none⟩ (fun _ => none) :=
  ⟨⟨id, World.init, fun _ => none, Vec.WInv.init, fun _ => rfl, WR.init h⟩, [], List.nodup_nil, by simp⟩

theorem StackSt.shows {md : Sma.Mode} (hc : Sma.Legal c) {pw : PWorld} {sw : Stack.Spec α}
    (h : StackSt c K F pw sw) : StackShows md c K pw sw := by
  obtain ⟨⟨f, w, vw, hI, habs, hW⟩, _⟩ := h
  have hv := hW.shows (md := md) hc hI
  intro k
  constructor
  · intro hk
    rw [habs k] at hk
    exact (hv k).1 (by simpa using hk)
  · intro s hk
    rw [habs k] at hk
    rcases ht : vw k with _ | t
    · simp [ht] at hk
    · simp only [ht, Option.map_some, Option.some.injEq] at hk
      obtain ⟨v, g1, g2, g3, g4, g5, g6⟩ := (hv k).2 t ht
      refine ⟨v, g1, by rw [← hk]; simp [g2], ?_, ?_⟩
      · intro x r hx
        have hd : t.data = r.reverse ++ [x] := by
          have : t.data = t.data.reverse.reverse := by simp
          rw [this, hk, hx]; simp
        have hne : t.data ≠ [] := by simp [hd]
        have := (g6 hne).2
        have hl : t.data.getLast hne = x := by simp [hd]
        rw [hl] at this
        exact this
      · rw [← hk, List.reverse_reverse]; exact g4

/-! ## `XValueStack` -/

/-- The object with its buffer moved to the pool. -/
def omap (f : Nat → Nat) (v : Obj ι α) : Obj ι α := ⟨v.c, xmap f v.o⟩

/-- The objects in the pool are those of the world of blocks, moved to the pool. -/
structure XWR (c : Sma.Cfg) (K : Elem α) (F : Rest) (f : Nat → Nat) (w : XStack.World ι α) (pw : XWorld ι α) : Prop where
  mem : R c K F f w.mem pw.pool
  obj : ∀ k, pw.obj k = (w.obj k).map (omap f)

theorem XWR.vecs {f : Nat → Nat} {w : XStack.World ι α} {pw : XWorld ι α} (h : XWR c K F f w pw) :
    WR c K F f (XStack.vecs w) ⟨pw.pool, vecs pw⟩ := by
  refine ⟨h.mem, fun k => ?_⟩
  show (pw.obj k).map _ = ((w.obj k).map _).map _
  rw [h.obj k]
  cases w.obj k <;> rfl

theorem lift_returns {β : Type} {p : Prog Sma.St β} {pw : XWorld ι α} {a : β} {s : Sma.St}
    (h : Returns p pw.pool a s) : Returns (lift p) pw a { pw with pool := s } := by
  unfold Returns lift at *; rw [h]

theorem lift_faults {β : Type} {p : Prog Sma.St β} {pw : XWorld ι α} {e : Fault}
    (h : Faults p pw.pool e) : Faults (lift p) pw e := by
  unfold Faults lift at *; rw [h]

theorem getObj_returns {pw : XWorld ι α} {k : Nat} {v : Obj ι α} (h : pw.obj k = some v) :
    Returns (getObj k) pw v pw := by
  unfold Returns getObj; rw [h]

theorem returns_lift {β : Type} {p : Prog (Mem α) β} {w w' : XStack.World ι α} {a : β}
    (h : Returns (XStack.lift p) w a w') : ∃ m, Returns p w.mem a m ∧ w' = { w with mem := m } := by
  obtain ⟨a', m, h1, h2, h3⟩ := (XStack.wp_lift p (fun a' w'' => a' = a ∧ w'' = w') w).1 ⟨a, w', h, rfl, rfl⟩
  subst h2
  exact ⟨m, h1, h3.symm⟩

theorem getObj_bind {k : Nat} {w w' : XStack.World ι α} {g : Obj ι α → Prog (XStack.World ι α) Unit}
    (h : Returns (XStack.getObj k >>= g) w () w') : ∃ v, w.obj k = some v ∧ Returns (g v) w () w' := by
  obtain ⟨v, w1, r1, r2⟩ := returns_bind h
  unfold Returns XStack.getObj at r1
  split at r1
  · cases r1
  · rename_i u hu; cases r1; exact ⟨_, hu, r2⟩

theorem XWR.ext {f f' : Nat → Nat} {w : XStack.World ι α} {pw : XWorld ι α} (h : XWR c K F f w pw)
    (ho : Old (XStack.vecs w)) {m' : Mem α} {s' : Sma.St} (he : Ext f w.mem f' m') (hr : R c K F f' m' s') :
    XWR c K F f' { w with mem := m' } { pw with pool := s' } := by
  refine ⟨hr, fun k => ?_⟩
  show pw.obj k = (w.obj k).map (omap f')
  rw [h.obj k]
  rcases hk : w.obj k with _ | v
  · rfl
  · simp only [Option.map_some, omap, xmap]
    rw [vmap_ext he (ho k v.o.st (by simp [XStack.vecs, hk]))]

theorem XWR.put {f : Nat → Nat} {w : XStack.World ι α} {pw : XWorld ι α} (h : XWR c K F f w pw) (k : Nat)
    {v v' : Option (Obj ι α)} (hv : v' = v.map (omap f)) :
    XWR c K F f { w with obj := fun x => if x = k then v else w.obj x }
      { pw with obj := fun x => if x = k then v' else pw.obj x } := by
  refine ⟨h.mem, fun x => ?_⟩
  show (if x = k then v' else pw.obj x) = (if x = k then v else w.obj x).map (omap f)
  by_cases hx : x = k
  · rw [if_pos hx, if_pos hx]; exact hv
  · rw [if_neg hx, if_neg hx]; exact h.obj x

/-- What a step in the pool does when the world of blocks goes from `w` to `w'`. -/
def XStepSim (c : Sma.Cfg) (K : Elem α) (F : Rest) (P : Prop) (pw : XWorld ι α) (w' : XStack.World ι α)
    (q : Prog (XWorld ι α) Unit) : Prop :=
  (P ∧ Faults q pw .crash) ∨ ∃ pw' f', Returns q pw () pw' ∧ XWR c K F f' w' pw'

theorem XStepSim.getObj {P : Prop} {f : Nat → Nat} {w w' : XStack.World ι α} {pw : XWorld ι α}
    (h : XWR c K F f w pw) {k : Nat} {v : Obj ι α} (hv : w.obj k = some v) {g : Obj ι α → Prog (XWorld ι α) Unit}
    (hs : XStepSim c K F P pw w' (g (omap f v))) : XStepSim c K F P pw w' (getObj k >>= g) := by
  have hk : pw.obj k = some (omap f v) := by rw [h.obj k, hv]; rfl
  unfold XStepSim Faults Returns at *
  rw [bind_returns (getObj_returns hk)]
  exact hs

/-- What must hold for an operation to stop. -/
def Lacks (c : Sma.Cfg) (K : Elem α) (cmp : ι → α → α → Bool) (pw : XWorld ι α) : WOp ι α → Prop
  | .op k (.push x) => ∃ v, pw.obj k = some v ∧
      ((v.o.st.cap < v.o.st.sz + 1 ∧ Short c K pw.pool (max 2 (2 * v.o.st.sz))) ∨
        ((v.o.st.sz = 0 ∨ cmp v.c x v.o.x = true) ∧ v.o.st.cap = v.o.st.sz + 1))
  | .op k .pop => ∃ v, pw.obj k = some v ∧ v.o.st.sz - 2 < v.o.st.cap / 3
  | .copy _ _ => True
  | _ => False

theorem wstep_sim [DecidableEq α] (hc : Sma.Legal c) (hM : 2 * c.M + 8 < 2 ^ 31)
    (hK : 2 * K.size + 8 < 2 ^ 31) {cmp : ι → α → α → Bool} {gone : α → α} {op : WOp ι α} {f : Nat → Nat}
    {w w' : XStack.World ι α} {vw : SWorld α} {sw sw' : XStack.SWorld ι α} {pw : XWorld ι α}
    (hI : XStack.WInv cmp w vw sw) (h : XWR c K F f w pw) (hs : XStack.wspecStep op sw = some sw')
    (hr : Returns (XStack.wstep K.triv cmp gone op) w () w') :
    XStepSim c K F (Lacks c K cmp pw op) pw w' (wstep .port c K cmp gone op) := by
  have ho := WInv.old hI.vec
  have hold : ∀ {k v}, w.obj k = some v → v.o.st.c < w.mem.next := fun {k v} hk =>
    ho k v.o.st (by simp [XStack.vecs, hk])
  have hput : ∀ {k : Nat} {u : Obj ι α}, w.obj k = some u → pw.obj k = some (omap f u) := by
    intro k u hk; rw [h.obj k, hk]; rfl
  have hrep : ∀ {k u}, w.obj k = some u → ∃ v r, sw k = some v ∧ Rep w.mem u.o.st r.reverse ∧
      XStack.Enc (cmp v.c) v.s u.o.x r := by
    intro k u hk
    rcases hv : sw k with _ | v
    · rw [hI.none hv] at hk; cases hk
    · obtain ⟨u', r, g1, _, g3, g4⟩ := hI.rep hv
      rw [hk] at g1; cases g1
      exact ⟨v, r, rfl, g3, g4⟩
  cases op with
  | new k i x0 =>
    cases hr
    refine Or.inr ⟨_, f, rfl, h.put k ?_⟩
    simp only [Option.map_some, omap, xmap, XStack.new, vmap_empty h.mem]
  | op k p =>
    obtain ⟨v, hv, hr⟩ := getObj_bind hr
    refine XStepSim.getObj h hv ?_
    obtain ⟨o, w1, r1, r2⟩ := returns_bind hr
    obtain ⟨m, r3, rfl⟩ := returns_lift r1
    cases r2
    obtain ⟨sv, r, hsv, hre, henc⟩ := hrep hv
    have hsim : Sim c K F (Lacks c K cmp pw (.op k p)) f w.mem pw.pool (XStack.step K.triv (cmp v.c) v.o p)
        (step (poolOps .port c K) (cmp v.c) (xmap f v.o) p) XR := by
      cases p with
      | push x =>
        refine (push_sim hc hM hK h.mem (cmp v.c) hI.vec.wf hre x).mono ?_ (fun _ _ _ _ _ h => h)
        intro q
        refine ⟨omap f v, hput hv, ?_⟩
        rcases q with q | q | q
        · exact Or.inl q
        · exact Or.inr q
        · exfalso
          rw [hre.size, List.length_reverse] at q
          by_cases hs0 : sv.s = []
          · rw [henc.nil_iff.2 hs0] at q; cases q
          · have := henc.longer hs0
            have := List.length_pos_of_ne_nil hs0
            omega
      | pop =>
        have hne : r ≠ [] := by
          intro e
          have := henc.nil_iff.1 e
          simp [XStack.wspecStep, hsv, this, XStack.specStep] at hs
        exact (pop_sim hc hM h.mem hI.vec.wf hre hne).mono (fun q => ⟨omap f v, hput hv, q⟩)
          (fun _ _ _ _ _ h => h)
      | clear => exact (clearX_sim (P := False) hc h.mem (hold hv)).mono (fun h => h) (fun _ _ _ _ _ h => h)
    rcases hsim o m r3 with ⟨hp, hf⟩ | ⟨o', s', f', g1, g2, g3, rfl, _⟩
    · exact Or.inl ⟨hp, bind_faults (lift_faults hf)⟩
    · exact Or.inr ⟨_, f', (bind_returns (lift_returns g1)).trans rfl, (h.ext ho g2 g3).put k rfl⟩
  | copy d t =>
    obtain ⟨v, hv, hr⟩ := getObj_bind hr
    refine XStepSim.getObj h hv ?_
    obtain ⟨u, hu, hr⟩ := getObj_bind hr
    refine XStepSim.getObj h hu ?_
    by_cases hds : d = t
    · rw [if_pos hds] at hr ⊢
      cases hr
      exact Or.inr ⟨pw, f, rfl, h⟩
    · rw [if_neg hds] at hr ⊢
      obtain ⟨o, w1, r1, r2⟩ := returns_bind hr
      obtain ⟨m, r3, rfl⟩ := returns_lift r1
      cases r2
      obtain ⟨st, m1, r4, r5⟩ := returns_bind r3
      obtain ⟨rfl, rfl⟩ := returns_pure r5
      obtain ⟨sv, r, hsv, hre, henc⟩ := hrep hu
      obtain ⟨c1, c2⟩ := cap_pool hc h.mem hre
      have hfit : Fit K u.o.st.cap := by unfold Fit; omega
      rcases copyAssign_sim hc h.mem v.o.st u.o.st (hold hv) (hold hu) hfit st m r4 with
        ⟨_, hf⟩ | ⟨st', s', f', g1, g2, g3, rfl, _⟩
      · exact Or.inl ⟨trivial, bind_faults (lift_faults (bind_faults hf))⟩
      · refine Or.inr ⟨_, f', (bind_returns (lift_returns (s := s') (a := ⟨u.c, ⟨u.o.x, vmap f' st⟩⟩)
          ((bind_returns g1).trans rfl))).trans rfl, (h.ext ho g2 g3).put d rfl⟩
  | move d t =>
    obtain ⟨v, hv, hr⟩ := getObj_bind hr
    refine XStepSim.getObj h hv ?_
    obtain ⟨u, hu, hr⟩ := getObj_bind hr
    refine XStepSim.getObj h hu ?_
    by_cases hds : d = t
    · rw [if_pos hds] at hr ⊢
      cases hr
      exact Or.inr ⟨pw, f, rfl, h⟩
    · rw [if_neg hds] at hr ⊢
      obtain ⟨⟨o1, o2⟩, w1, r1, r2⟩ := returns_bind hr
      obtain ⟨m, r3, rfl⟩ := returns_lift r1
      obtain ⟨⟨st1, st2⟩, m1, r4, r5⟩ := returns_bind r3
      cases r5
      cases r2
      rcases moveAssign_sim (P := False) hc h.mem v.o.st u.o.st (hold hv) (hold hu) _ _ r4 with
        ⟨hp, _⟩ | ⟨⟨a', b'⟩, s', f', g1, g2, g3, ⟨ga, _⟩, gb, _⟩
      · exact hp.elim
      · simp only at ga gb
        subst ga gb
        refine Or.inr ⟨_, f', (bind_returns (lift_returns (s := s')
          (a := (⟨u.c, ⟨u.o.x, vmap f' st1⟩⟩, ⟨u.c, ⟨gone u.o.x, vmap f' st2⟩⟩))
          ((bind_returns g1).trans rfl))).trans rfl, ?_⟩
        exact ((h.ext ho g2 g3).put d rfl).put t rfl
  | drop k =>
    obtain ⟨v, hv, hr⟩ := getObj_bind hr
    refine XStepSim.getObj h hv ?_
    obtain ⟨v', w1, r1, r2⟩ := returns_bind hr
    obtain ⟨m, r3, rfl⟩ := returns_lift r1
    rcases clear_sim (P := False) hc h.mem v.o.st (hold hv) _ _ r3 with ⟨hp, _⟩ | ⟨_, s', f', g1, g2, g3, _⟩
    · exact hp.elim
    · cases r2
      exact Or.inr ⟨_, f', (bind_returns (lift_returns g1)).trans rfl, (h.ext ho g2 g3).put k rfl⟩

theorem x_finite {sw sw' : XStack.SWorld ι α} {op : WOp ι α}
    (h : ∃ ks : List Nat, ks.Nodup ∧ ∀ k, k ∈ ks ↔ sw k ≠ none) (hs : XStack.wspecStep op sw = some sw') :
    ∃ ks : List Nat, ks.Nodup ∧ ∀ k, k ∈ ks ↔ sw' k ≠ none := by
  cases op with
  | new k =>
    simp only [XStack.wspecStep] at hs
    split at hs
    · cases hs; exact finite_put _ _ h
    · cases hs
  | op k p =>
    obtain ⟨_, _, hs⟩ := Option.bind_eq_some_iff.1 hs
    obtain ⟨_, _, hs⟩ := Option.bind_eq_some_iff.1 hs
    cases hs; exact finite_put _ _ h
  | copy d s =>
    obtain ⟨_, _, hs⟩ := Option.bind_eq_some_iff.1 hs
    obtain ⟨_, _, hs⟩ := Option.bind_eq_some_iff.1 hs
    cases hs; exact finite_put _ _ h
  | move d s =>
    obtain ⟨_, _, hs⟩ := Option.bind_eq_some_iff.1 hs
    obtain ⟨_, _, hs⟩ := Option.bind_eq_some_iff.1 hs
    split at hs
    · cases hs; exact h
    · cases hs; exact finite_put _ _ (finite_put _ _ h)
  | drop k =>
    obtain ⟨_, _, hs⟩ := Option.bind_eq_some_iff.1 hs
    cases hs; exact finite_put _ _ h

/-- A state of the pool that extremum stacks have brought about. -/
structure St (c : Sma.Cfg) (K : Elem α) (F : Rest) (cmp : ι → α → α → Bool) (pw : XWorld ι α) (sw : XStack.SWorld ι α) :
    Prop where
  ex : ∃ f w vw, XStack.WInv cmp w vw sw ∧ XWR c K F f w pw
  fin : ∃ ks : List Nat, ks.Nodup ∧ ∀ k, k ∈ ks ↔ sw k ≠ none

theorem St.init {cmp : ι → α → α → Bool} {s0 s : Sma.St} (h : Returns (Sma.construct c) s0 () s) :
    St c K .nil cmp ⟨s, fun _ => none⟩ (fun _ => none) :=
  ⟨⟨id, XStack.World.init, fun _ => none, XStack.WInv.init, (WR.init h).mem, fun _ => rfl⟩, [], List.nodup_nil,
    by simp⟩

theorem wrun_pool [DecidableEq α] {R : ι → α → α → Prop} {cmp : ι → α → α → Bool} (hc : Sma.Legal c)
    (hM : 2 * c.M + 8 < 2 ^ 31) (hK : 2 * K.size + 8 < 2 ^ 31) (ho : ∀ i, Heap.Order (R i) (cmp i)) (gone : α → α)
    (ops : List (WOp ι α)) {pw : XWorld ι α} {sw sw' : XStack.SWorld ι α} (h : St c K F cmp pw sw)
    (hs : XStack.wspecRun ops sw = some sw') (ha : XStack.WAvoidsAll R cmp K.triv ops sw) :
    Faults (wrun .port c K cmp gone ops) pw .crash ∨
      ∃ pw', Returns (wrun .port c K cmp gone ops) pw () pw' ∧ St c K F cmp pw' sw' := by
  induction ops generalizing pw sw with
  | nil => cases hs; exact Or.inr ⟨pw, rfl, h⟩
  | cons op ops ih =>
    obtain ⟨⟨f, w, vw, hI, hW⟩, hfin⟩ := h
    obtain ⟨sw1, hs1, hs2⟩ := Option.bind_eq_some_iff.1 hs
    obtain ⟨_, w1, r1, vw1, hI1⟩ := XStack.wstep_ok ho (triv := K.triv) (gone := gone) hI hs1 ha.1
    rcases wstep_sim hc hM hK hI hW hs1 r1 with ⟨_, hf⟩ | ⟨pw1, f1, e1, e2⟩
    · exact Or.inl (bind_faults hf)
    · have er : wrun .port c K cmp gone (op :: ops) pw = wrun .port c K cmp gone ops pw1 := bind_returns e1
      have := ih ⟨⟨f1, w1, vw1, hI1, e2⟩, x_finite hfin hs1⟩ hs2 (ha.2 sw1 hs1)
      unfold Faults Returns at *
      rw [er]
      exact this

section
variable {cmp : ι → α → α → Bool} {pw : XWorld ι α} {sw : XStack.SWorld ι α}

theorem St.shows {md : Sma.Mode} {R : ι → α → α → Prop} (hc : Sma.Legal c)
    (ho : ∀ i, Heap.Order (R i) (cmp i)) (h : St c K F cmp pw sw) : Shows md c K R pw sw := by
  obtain ⟨⟨f, w, vw, hI, hW⟩, _⟩ := h
  intro k
  obtain ⟨h1, h2⟩ := hI.shows ho k
  refine ⟨fun hk => by rw [hW.obj k, h1 hk]; rfl, ?_⟩
  intro v hv
  obtain ⟨u, g1, g2, g3, g4, g5⟩ := h2 v hv
  refine ⟨omap f u, by rw [hW.obj k, g1]; rfl, g2, g3, ?_, g5⟩
  intro y t hy
  exact back_pool hc hW.mem (g4 y t hy)

theorem St.placed (hc : Sma.Legal c) (h : St c K F cmp pw sw) : Placed c K.size pw.pool (vecs pw) := by
  obtain ⟨⟨f, w, vw, hI, hW⟩, _⟩ := h
  exact placed_vec hc hI.vec hW.vecs

theorem St.accounted (hc : Sma.Legal c) (h : St c K .nil cmp pw sw) :
    Accounted c K.size pw.pool (vecs pw) (fun k => sw k ≠ none) := by
  obtain ⟨⟨f, w, vw, hI, hW⟩, hfin⟩ := h
  have hvw : ∀ k, vw k ≠ none ↔ sw k ≠ none := by
    intro k
    rcases hs : sw k with _ | s
    · simp [hI.dead k hs]
    · obtain ⟨_, t, _, _, _, g, _⟩ := hI.alive k s hs
      simp [g]
  obtain ⟨ks, h1, h2⟩ := hfin
  obtain ⟨ks', g1, g2, g3⟩ := accounted_vec hc hI.vec hW.vecs ⟨ks, h1, fun k => (h2 k).trans (hvw k).symm⟩
  exact ⟨ks', g1, fun k => (g2 k).trans (hvw k), g3⟩

end

theorem StackSt.accounted (hc : Sma.Legal c) {pw : PWorld} {sw : Stack.Spec α} (h : StackSt c K .nil pw sw) :
    Accounted c K.size pw.pool pw.obj (fun k => sw k ≠ none) := by
  obtain ⟨⟨f, w, vw, hI, habs, hW⟩, hfin⟩ := h
  have hvw : ∀ k, vw k ≠ none ↔ sw k ≠ none := by
    intro k
    rw [habs k]
    cases vw k <;> simp
  obtain ⟨ks, h1, h2⟩ := hfin
  obtain ⟨ks', g1, g2, g3⟩ := accounted_vec hc hI hW ⟨ks, h1, fun k => (h2 k).trans (hvw k).symm⟩
  exact ⟨ks', g1, fun k => (g2 k).trans (hvw k), g3⟩

theorem StackSt.placed (hc : Sma.Legal c) {pw : PWorld} {sw : Stack.Spec α} (h : StackSt c K F pw sw) :
    Placed c K.size pw.pool pw.obj := by
  obtain ⟨⟨f, w, vw, hI, habs, hW⟩, _⟩ := h
  exact placed_vec hc hI hW

end Verif.XPool
