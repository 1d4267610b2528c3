import Verif.VectorWorld
import Verif.Spec.VectorInt
import Verif.AllocSpec

/-!
# The `int` arithmetic of `Vector`

`Verif.Vector` counts loops and bytes with natural numbers.  The code counts loops with `int` and hands
byte counts to the allocator as `int`.  Here the functions with such counters are written with them;
everything else is taken from `Verif.Vector`.
-/

namespace Verif.Vec

open Prog

variable {α : Type}

/-- `for (int i = lo; i < lo + n; i++)`: going on after `2^31 - 1` overflows. -/
def forInt {σ : Type} : Nat → Nat → (Nat → Prog σ Unit) → Prog σ Unit
  | 0, _, _ => pure ()
  | n + 1, lo, body => do
    body lo
    check (lo + 1 < 2 ^ 31) .overflow
    forInt n (lo + 1) body

/-- The number of bytes that reaches the allocator when a vector of elements of `w` bytes asks for `n` of
them: `n` is converted from `size_t` to `int` (Vector.hpp:165, 191), then spec/DStructSpec.hpp:48. -/
def bytesAsked (w n : Nat) : Int := AllocSpec.byteCount w (Int.bmod n (2 ^ 32))

/-- `Alloc_::allocate(n)` (spec/DStructSpec.hpp:47-49) over the libc port (libc-dstruct-port.hpp:25-27):
the block has as many slots as fit into the bytes asked for; `malloc` of a negative number, converted to
`size_t`, gives null.  Simplification: `malloc` has memory left for all other requests. -/
def allocI (w n : Nat) : Prog (Mem α) Nat := fun m =>
  if bytesAsked w n < 0 then some (.ok (0, { m with next := m.next + 1 }))
  else alloc ((bytesAsked w n).toNat / w) m

/-- `Alloc_::deallocate(ptr, n)` (spec/DStructSpec.hpp:51-53), the count converted in the same way. -/
def deallocI (w b n : Nat) : Prog (Mem α) Unit := dealloc b ((bytesAsked w n).toNat / w)

/-- `Vector::resize(size_t n)` (Vector.hpp:159-181). -/
def resizeI (w : Nat) (triv : Bool) (v : Vec) (n : Nat) : Prog (Mem α) Vec := do
  let c ← (if n = 0 then pure 0 else allocI w n)
  when (v.c ≠ 0) do
    dassert (v.cap ≠ 0)
    forInt v.sz 0 fun i => do
      when (i < n) (construct c i (.ref v.c i))
      destroy triv v.c i
    deallocI w v.c v.cap
  pure { sz := if n < v.sz then n else v.sz, cap := n, c := c }

/-- `Vector::resize(size_t n, const T &element)` (Vector.hpp:183-210).  Simplification: the conversion of
a size of `2^31` or more to the `int` counter (line 205), which the platform defines, counts as an overflow. -/
def resizeFillI (w : Nat) (triv : Bool) (v : Vec) (n : Nat) (e : Arg α) : Prog (Mem α) Vec := do
  if n = 0 then resizeI w triv v 0
  else
    let c ← allocI w n
    when (v.c ≠ 0) do
      forInt v.sz 0 fun i => do
        when (i < n) (construct c i (.ref v.c i))
        destroy triv v.c i
      deallocI w v.c v.cap
    check (v.sz < 2 ^ 31) .overflow
    forInt (n - v.sz) v.sz fun i => construct c i e
    pure { sz := n, cap := n, c := c }

/-- `Vector(size_t n, const T &element)` (Vector.hpp:25-32). -/
def ctorFillI (w : Nat) (triv : Bool) (n : Nat) (e : Arg α) : Prog (Mem α) Vec := do
  dassert (n ≠ 0)
  let v ← resizeI w triv Vec.empty n
  forInt n 0 fun i => construct v.c i e
  pure { sz := n, cap := n, c := v.c }

/-- `Vector::clear()` (Vector.hpp:129-139), also the destructor (59-61). -/
def clearI (w : Nat) (triv : Bool) (v : Vec) : Prog (Mem α) Vec := do
  when (v.c ≠ 0) do
    forInt v.sz 0 fun i => destroy triv v.c i
    deallocI w v.c v.cap
  pure Vec.empty

/-- `Vector::push_back(const T &element)` (Vector.hpp:98-107). -/
def pushBackI (w : Nat) (triv : Bool) (v : Vec) (e : Arg α) : Prog (Mem α) Vec := do
  let v ← (if v.sz + 1 > v.cap then
      (if v.sz ≠ 0 then resizeI w triv v (2 * v.sz) else resizeI w triv v 2)
    else pure v)
  construct v.c v.sz e
  pure { v with sz := v.sz + 1 }

/-- `Vector::pop_back()` (Vector.hpp:113-120). -/
def popBackI (w : Nat) (triv : Bool) (v : Vec) : Prog (Mem α) Vec := do
  dassert (v.sz > 0)
  let v := { v with sz := v.sz - 1 }
  destroy triv v.c v.sz
  if v.sz < v.cap / 3 then resizeI w triv v (v.cap / 2) else pure v

/-- Copy assignment for distinct objects (Vector.hpp:34-43). -/
def copyAssignI (w : Nat) (triv : Bool) (dst src : Vec) : Prog (Mem α) Vec := do
  let d ← clearI w triv dst
  let d ← resizeI w triv d src.cap
  let d := { d with sz := src.sz }
  forInt d.sz 0 fun i => do
    destroy triv d.c i
    construct d.c i (.ref src.c i)
  pure d

/-- Move assignment for distinct objects (Vector.hpp:45-57). -/
def moveAssignI (w : Nat) (triv : Bool) (dst src : Vec) : Prog (Mem α) (Vec × Vec) := do
  let _ ← clearI w triv dst
  pure (src, Vec.empty)

/-- One operation (compare `step`). -/
def stepI (w : Nat) (triv : Bool) : Op α → Prog (World α) Unit
  | .new k => putObj k (some Vec.empty)
  | .newFill k n x => do putObj k (some (← lift (ctorFillI w triv n (.val x))))
  | .push k x => do
    let v ← getObj k
    putObj k (some (← lift (pushBackI w triv v (.val x))))
  | .pushElem k j i => do
    let v ← getObj k
    let u ← getObj j
    dassert (i < u.sz)
    putObj k (some (← lift (pushBackI w triv v (.ref u.c i))))
  | .pop k => do
    let v ← getObj k
    putObj k (some (← lift (popBackI w triv v)))
  | .set k i x => do
    let v ← getObj k
    lift (setIndex v i (.val x))
  | .resize k n => do
    let v ← getObj k
    putObj k (some (← lift (resizeI w triv v n)))
  | .resizeFill k n x => do
    let v ← getObj k
    putObj k (some (← lift (resizeFillI w triv v n (.val x))))
  | .clear k => do
    let v ← getObj k
    putObj k (some (← lift (clearI w triv v)))
  | .copy d s => do
    let v ← getObj d
    let u ← getObj s
    if d = s then pure () else
    putObj d (some (← lift (copyAssignI w triv v u)))
  | .move d s => do
    let v ← getObj d
    let u ← getObj s
    if d = s then pure () else
    let (v', u') ← lift (moveAssignI w triv v u)
    putObj d (some v')
    putObj s (some u')
  | .drop k => do
    let v ← getObj k
    let _ ← lift (clearI w triv v)
    putObj k none

/-- A history of operations. -/
def runI (w : Nat) (triv : Bool) (ops : List (Op α)) : Prog (World α) Unit := seqAll (ops.map (stepI w triv))

/-! ## Below the limit -/

theorem check_pos {σ : Type} {p : Prop} [Decidable p] {f : Fault} (h : p) : (check p f : Prog σ Unit) = pure () := by
  funext s
  show (if p then _ else _) = _
  rw [if_pos h]
  rfl

theorem forInt_eq {σ : Type} (n lo : Nat) (body : Nat → Prog σ Unit) (h : lo + n < 2 ^ 31) :
    forInt n lo body = forRange n lo () fun i _ => body i := by
  induction n generalizing lo with
  | zero => rfl
  | succ n ih =>
    rw [forInt, forRange, ih (lo + 1) (by omega), check_pos (by omega)]
    rfl

theorem bytesAsked_eq (w n : Nat) : bytesAsked w n = Int.bmod (n * w : Nat) (2 ^ 32) := by
  have h : (((Int.bmod n (2 ^ 32)) % 2 ^ 64 * w) % 2 ^ 64) % ((2 ^ 32 : Nat) : Int) =
      ((n * w : Nat) : Int) % ((2 ^ 32 : Nat) : Int) := by
    rw [Int.emod_emod_of_dvd _ (by decide), Int.mul_emod, Int.emod_emod_of_dvd _ (by decide), Int.bmod_emod,
      ← Int.mul_emod, Int.natCast_mul]
  unfold bytesAsked AllocSpec.byteCount
  generalize ((Int.bmod n (2 ^ 32)) % 2 ^ 64 * w) % 2 ^ 64 = x at h ⊢
  rw [Int.bmod_def, Int.bmod_def, h]

theorem bytesAsked_small {w n : Nat} (h : n * w < 2 ^ 31) : bytesAsked w n = (n * w : Nat) := by
  rw [bytesAsked_eq]
  generalize n * w = p at h
  rw [Int.bmod_def]
  omega

section
variable {w : Nat} (hw : 0 < w)
include hw

theorem small_of_mul {n : Nat} (h : n * w < 2 ^ 31) : n < 2 ^ 31 :=
  Nat.lt_of_le_of_lt (Nat.le_mul_of_pos_right n hw) h

theorem allocI_eq {n : Nat} (h : n * w < 2 ^ 31) : allocI w n = (alloc n : Prog (Mem α) Nat) := by
  funext m
  unfold allocI
  rw [bytesAsked_small h, if_neg (by omega), Int.toNat_natCast, Nat.mul_div_cancel _ hw]

theorem deallocI_eq {b n : Nat} (h : n * w < 2 ^ 31) : deallocI w b n = (dealloc b n : Prog (Mem α) Unit) := by
  unfold deallocI
  rw [bytesAsked_small h, Int.toNat_natCast, Nat.mul_div_cancel _ hw]

/-- A vector whose storage is below the limit. -/
def Below (w : Nat) (v : Vec) : Prop := v.sz < 2 ^ 31 ∧ v.cap * w < 2 ^ 31

omit hw in
theorem Below.empty : Below w Vec.empty := by
  constructor
  · decide
  · show 0 * w < _
    omega

theorem resizeI_eq {triv : Bool} {v : Vec} {n : Nat} (hv : Below w v) (hn : n * w < 2 ^ 31) :
    resizeI w triv v n = (resizeWith alloc triv v n : Prog (Mem α) Vec) := by
  unfold resizeI resizeWith
  rw [allocI_eq hw hn, deallocI_eq hw hv.2]
  simp only [forInt_eq v.sz 0 _ (by have := hv.1; omega)]

theorem resizeFillI_eq {triv : Bool} {v : Vec} {n : Nat} {e : Arg α} (hv : Below w v) (hn : n * w < 2 ^ 31) :
    resizeFillI w triv v n e = resizeFillWith alloc triv v n e := by
  have := small_of_mul hw hn
  have h1 := hv.1
  unfold resizeFillI resizeFillWith
  rw [allocI_eq hw hn, deallocI_eq hw hv.2, resizeI_eq hw hv (by omega), check_pos h1]
  by_cases h2 : n ≤ v.sz
  · rw [show n - v.sz = 0 by omega]
    simp only [forInt_eq v.sz 0 _ (by omega), forInt_eq 0 v.sz _ (by omega)]
    rfl
  · simp only [forInt_eq v.sz 0 _ (by omega), forInt_eq (n - v.sz) v.sz _ (by omega)]
    rfl

theorem ctorFillI_eq {triv : Bool} {n : Nat} {e : Arg α} (hn : n * w < 2 ^ 31) :
    ctorFillI w triv n e = ctorFillWith alloc triv n e := by
  have := small_of_mul hw hn
  unfold ctorFillI ctorFillWith
  rw [resizeI_eq hw Below.empty hn]
  simp only [forInt_eq n 0 _ (by omega)]

theorem clearI_eq {triv : Bool} {v : Vec} (hv : Below w v) :
    clearI w triv v = (clear triv v : Prog (Mem α) Vec) := by
  unfold clearI clear
  rw [deallocI_eq hw hv.2]
  simp only [forInt_eq v.sz 0 _ (by have := hv.1; omega)]

theorem pushBackI_eq {triv : Bool} {v : Vec} {e : Arg α} (hv : Below w v)
    (h : v.sz + 1 > v.cap → max 2 (2 * v.sz) * w < 2 ^ 31) :
    pushBackI w triv v e = pushBackWith alloc triv v e := by
  unfold pushBackI pushBackWith
  by_cases h1 : v.sz + 1 > v.cap
  · have h := h h1
    rw [if_pos h1, if_pos h1]
    by_cases h2 : v.sz ≠ 0
    · rw [if_pos h2, if_pos h2, resizeI_eq hw hv (by rwa [show max 2 (2 * v.sz) = 2 * v.sz by omega] at h)]
    · rw [if_neg h2, if_neg h2, resizeI_eq hw hv (by rwa [show max 2 (2 * v.sz) = 2 by omega] at h)]
  · rw [if_neg h1, if_neg h1]

omit hw in
theorem half_small {c : Nat} (h : c * w < 2 ^ 31) : c / 2 * w < 2 ^ 31 :=
  Nat.lt_of_le_of_lt (Nat.mul_le_mul_right w (Nat.div_le_self c 2)) h

theorem popBackI_eq {triv : Bool} {v : Vec} (hv : Below w v) :
    popBackI w triv v = (popBackWith alloc triv v : Prog (Mem α) Vec) := by
  unfold popBackI popBackWith
  have hv' : Below w { v with sz := v.sz - 1 } := ⟨by have := hv.1; show v.sz - 1 < _; omega, hv.2⟩
  simp only [resizeI_eq hw hv' (half_small hv.2)]

theorem copyAssignI_eq {triv : Bool} {d s : Vec} (hd : Below w d) (hs : Below w s) :
    copyAssignI w triv d s = (copyAssignWith alloc triv d s : Prog (Mem α) Vec) := by
  unfold copyAssignI copyAssignWith
  rw [clearI_eq hw hd]
  unfold clear
  simp only [bind_assoc, pure_bind, resizeI_eq hw (Below.empty (w := w)) hs.2]
  simp only [forInt_eq s.sz 0 _ (by have := hs.1; omega)]

end

/-! ## Histories -/

theorem Below.of {w : Nat} (hw : 0 < w) {m : World α} {sw : SWorld α} (h : WInv m sw) (hr : Room w sw) {k : Nat}
    {s : SVec α} (hk : sw k = some s) : ∃ v, m.obj k = some v ∧ Below w v ∧ v.sz = s.data.length ∧ v.cap = s.cap := by
  obtain ⟨v, h1, h2, h3⟩ := h.alive k s hk
  have h4 := h.cap_le hk
  have h5 := hr k s hk
  have := small_of_mul hw h5
  exact ⟨v, h1, ⟨by rw [h2.size]; omega, by rw [h3]; exact h5⟩, h2.size, h3⟩

theorem bind_getObj {β : Type} {m : World α} {k : Nat} {v : Vec} (h : m.obj k = some v) (p : Vec → Prog (World α) β) :
    (getObj k >>= p) m = p v m := by
  apply bind_returns
  unfold Returns getObj
  rw [h]

theorem stepI_eq {w : Nat} (hw : 0 < w) {triv : Bool} {op : Op α} {m : World α} {sw sw' : SWorld α} (h : WInv m sw)
    (hs : specStep op sw = some sw') (hr : Room w sw) (hr' : Room w sw') : stepI w triv op m = step triv op m := by
  unfold step
  cases op with
  | new k => rfl
  | set k i x => rfl
  | newFill k n x =>
    simp only [specStep] at hs
    split at hs
    · cases hs
      have : n * w < 2 ^ 31 := hr' k ⟨_, n⟩ (if_pos rfl)
      rw [stepI, stepWith]
      rw [ctorFillI_eq hw this]
    · cases hs
  | push k x =>
    simp only [specStep, Option.bind_eq_bind, Option.bind_eq_some_iff, Option.some.injEq] at hs
    obtain ⟨s, hk, rfl⟩ := hs
    obtain ⟨v, h1, h2, h3, h4⟩ := Below.of hw h hr hk
    have := hr' k ⟨_, _⟩ (if_pos rfl)
    rw [stepI, stepWith]
    rw [bind_getObj h1, bind_getObj h1, pushBackI_eq hw h2 fun h5 => by
      simp only [capAfterPush] at this
      rwa [if_neg (by omega), ← h3] at this]
  | pushElem k j i =>
    simp only [specStep, Option.bind_eq_bind, Option.bind_eq_some_iff, Option.some.injEq] at hs
    obtain ⟨s, hk, u, hj, x, hx, rfl⟩ := hs
    obtain ⟨v, h1, h2, h3, h4⟩ := Below.of hw h hr hk
    have := hr' k ⟨_, _⟩ (if_pos rfl)
    rw [stepI, stepWith]
    rw [bind_getObj h1, bind_getObj h1]
    simp only [pushBackI_eq hw h2 fun h5 => by
      simp only [capAfterPush] at this
      rwa [if_neg (by omega), ← h3] at this]
  | pop k =>
    simp only [specStep, Option.bind_eq_bind, Option.bind_eq_some_iff] at hs
    obtain ⟨s, hk, _⟩ := hs
    obtain ⟨v, h1, h2, h3, h4⟩ := Below.of hw h hr hk
    rw [stepI, stepWith]
    rw [bind_getObj h1, bind_getObj h1, popBackI_eq hw h2]
  | resize k n =>
    simp only [specStep, Option.bind_eq_bind, Option.bind_eq_some_iff, Option.some.injEq] at hs
    obtain ⟨s, hk, rfl⟩ := hs
    obtain ⟨v, h1, h2, h3, h4⟩ := Below.of hw h hr hk
    have : n * w < 2 ^ 31 := hr' k ⟨_, n⟩ (if_pos rfl)
    rw [stepI, stepWith]
    rw [bind_getObj h1, bind_getObj h1, resizeI_eq hw h2 this]
  | resizeFill k n x =>
    simp only [specStep, Option.bind_eq_bind, Option.bind_eq_some_iff, Option.some.injEq] at hs
    obtain ⟨s, hk, rfl⟩ := hs
    obtain ⟨v, h1, h2, h3, h4⟩ := Below.of hw h hr hk
    have : n * w < 2 ^ 31 := hr' k ⟨_, n⟩ (if_pos rfl)
    rw [stepI, stepWith]
    rw [bind_getObj h1, bind_getObj h1, resizeFillI_eq hw h2 this]
  | clear k =>
    simp only [specStep, Option.bind_eq_bind, Option.bind_eq_some_iff, Option.some.injEq] at hs
    obtain ⟨s, hk, rfl⟩ := hs
    obtain ⟨v, h1, h2, h3, h4⟩ := Below.of hw h hr hk
    rw [stepI, stepWith]
    rw [bind_getObj h1, bind_getObj h1, clearI_eq hw h2]
  | copy d s =>
    simp only [specStep, Option.bind_eq_bind, Option.bind_eq_some_iff, Option.some.injEq] at hs
    obtain ⟨t, hd, u, hu, rfl⟩ := hs
    obtain ⟨v, h1, h2, h3, h4⟩ := Below.of hw h hr hd
    obtain ⟨v', g1, g2, g3, g4⟩ := Below.of hw h hr hu
    rw [stepI, stepWith]
    rw [bind_getObj h1, bind_getObj h1, bind_getObj g1, bind_getObj g1, copyAssignI_eq hw h2 g2]
  | move d s =>
    simp only [specStep, Option.bind_eq_bind, Option.bind_eq_some_iff] at hs
    obtain ⟨t, hd, u, hu, _⟩ := hs
    obtain ⟨v, h1, h2, h3, h4⟩ := Below.of hw h hr hd
    obtain ⟨v', g1, g2, g3, g4⟩ := Below.of hw h hr hu
    rw [stepI, stepWith]; unfold moveAssignI moveAssign
    rw [bind_getObj h1, bind_getObj h1, bind_getObj g1, bind_getObj g1, clearI_eq hw h2]
  | drop k =>
    simp only [specStep, Option.bind_eq_bind, Option.bind_eq_some_iff, Option.some.injEq] at hs
    obtain ⟨s, hk, rfl⟩ := hs
    obtain ⟨v, h1, h2, h3, h4⟩ := Below.of hw h hr hk
    rw [stepI, stepWith]
    rw [bind_getObj h1, bind_getObj h1, clearI_eq hw h2]

theorem runI_ok {w : Nat} (hw : 0 < w) {triv : Bool} {ops : List (Op α)} {m : World α} {sw sw' : SWorld α}
    (h : WInv m sw) (hs : specRun ops sw = some sw') (ha : AvoidsAll triv ops sw) (hr : Room w sw)
    (hr' : RoomAll w ops sw) : ∃ m', Returns (runI w triv ops) m () m' ∧ WInv m' sw' ∧ Room w sw' := by
  induction ops generalizing m sw with
  | nil => cases hs; exact ⟨m, rfl, h, hr⟩
  | cons op ops ih =>
    obtain ⟨sw1, hs1, hs2⟩ := Option.bind_eq_some_iff.1 hs
    obtain ⟨_, m1, r1, h1⟩ := step_ok h hs1 ha.1
    obtain ⟨g1, g2⟩ := hr' sw1 hs1
    obtain ⟨m', e1, e2⟩ := ih h1 hs2 (ha.2 sw1 hs1) g1 g2
    refine ⟨m', ?_, e2⟩
    have er : runI w triv (op :: ops) m = runI w triv ops m1 :=
      bind_returns (show Returns (stepI w triv op) m () m1 by
        unfold Returns; rw [stepI_eq hw h hs1 hr g1]; exact r1)
    unfold Returns at *
    rw [er]
    exact e1

/-! ## Beyond the limit -/

theorem bytesAsked_neg {w n : Nat} (h : 2 ^ 31 ≤ n * w % 2 ^ 32) : bytesAsked w n < 0 := by
  rw [bytesAsked_eq]
  generalize n * w = p at h
  rw [Int.bmod_def]
  omega

theorem bytesAsked_pos {w n : Nat} (h : n * w % 2 ^ 32 < 2 ^ 31) : bytesAsked w n = (n * w % 2 ^ 32 : Nat) := by
  rw [bytesAsked_eq]
  generalize n * w = p at h
  rw [Int.bmod_def]
  omega

theorem construct_null {m : Mem α} {e : Arg α} : Faults (construct 0 ((0 : Nat) : Int) e) m .crash := rfl

/-- Growing to a size for which the allocator is asked for a negative number of bytes. -/
theorem resizeI_neg {w : Nat} {triv : Bool} {v : Vec} {n : Nat} {m : Mem α} (hn : n ≠ 0)
    (hneg : bytesAsked w n < 0) :
    (v.c = 0 → Returns (resizeI w triv v n) m { sz := if n < v.sz then n else v.sz, cap := n, c := 0 }
      { m with next := m.next + 1 }) ∧
    (v.c ≠ 0 → v.cap ≠ 0 → v.sz ≠ 0 → Faults (resizeI w triv v n) m .crash) := by
  have ha : Returns (allocI w n) m 0 { m with next := m.next + 1 } := by
    unfold Returns allocI
    rw [if_pos hneg]
  constructor
  · intro h
    unfold Returns resizeI
    rw [if_neg hn, bind_returns ha, h]
    rfl
  · intro h hc hz
    unfold Faults resizeI
    rw [if_neg hn, bind_returns ha]
    apply bind_faults
    unfold when
    rw [if_pos h]
    rw [show (dassert (v.cap ≠ 0) : Prog (Mem α) Unit) = pure () from check_pos hc, pure_bind]
    obtain ⟨k, hk⟩ : ∃ k, v.sz = k + 1 := ⟨v.sz - 1, by omega⟩
    rw [hk]
    refine bind_faults (bind_faults (bind_faults ?_))
    rw [if_pos (by omega)]
    exact construct_null

theorem lift_faults {β : Type} {p : Prog (Mem α) β} {m : World α} {e : Fault} (h : Faults p m.mem e) :
    Faults (lift p) m e := by
  unfold Faults lift at *
  rw [h]

theorem lift_returns {β : Type} {p : Prog (Mem α) β} {m : World α} {b : β} {m' : Mem α} (h : Returns p m.mem b m') :
    Returns (lift p) m b { m with mem := m' } := by
  unfold Returns lift at *
  rw [h]

/-- `push_back` on a full vector when the doubled storage has `2^31` bytes or more. -/
theorem pushI_full {w : Nat} (hw : 0 < w) (hw2 : w < 2 ^ 31) {triv : Bool} {m : World α} {sw : SWorld α} (h : WInv m sw)
    (hr : Room w sw) {k : Nat} {s : SVec α} (hk : sw k = some s) (hfull : s.data.length = s.cap)
    (hbig : 2 ^ 31 ≤ max 2 (2 * s.cap) * w) (x : α) : Faults (stepI w triv (.push k x)) m .crash := by
  obtain ⟨v, h1, h2, h3⟩ := h.alive k s hk
  have hR := hr k s hk
  have hneg : ∀ n, n = max 2 (2 * s.cap) → bytesAsked w n < 0 := by
    rintro n rfl
    apply bytesAsked_neg
    have : max 2 (2 * s.cap) * w < 2 ^ 32 := by
      by_cases h0 : s.cap = 0
      · rw [show max 2 (2 * s.cap) = 2 by omega]; omega
      · rw [show max 2 (2 * s.cap) = 2 * s.cap by omega, Nat.mul_assoc]; omega
    rw [Nat.mod_eq_of_lt this]
    exact hbig
  unfold Faults
  rw [stepI, bind_getObj h1]
  refine bind_faults (lift_faults ?_)
  unfold Faults pushBackI
  rw [if_pos (by rw [h2.size, h3]; omega)]
  by_cases h0 : v.c = 0
  · obtain ⟨rfl, e2⟩ := h2.null h0
    rw [if_neg (by decide), bind_returns ((resizeI_neg (by decide) (hneg 2 (by
      rw [e2] at hfull; rw [← hfull]; rfl))).1 rfl)]
    exact bind_faults construct_null
  · obtain ⟨g1, _⟩ := h2.buf h0
    have g2 : v.sz ≠ 0 := by rw [h2.size, hfull, ← h3]; exact g1
    have g3 : v.sz = s.cap := by rw [h2.size, hfull]
    rw [if_pos g2]
    exact bind_faults ((resizeI_neg (by omega) (hneg _ (by omega))).2 h0 g1 g2)

/-- The vector `k` reports capacity `n`, has `j` elements and storage for `L`. -/
def Short (m : World α) (k n L j : Nat) : Prop :=
  ∃ c f, m.obj k = some { sz := j, cap := n, c := c } ∧ c ≠ 0 ∧ m.mem.blk c = some ⟨L, f⟩

theorem Short.push {w : Nat} {triv : Bool} {m : World α} {k n L j : Nat} (h : Short m k n L j) (hL : L < n) (hj : j < L)
    (x : α) : ∃ m', Returns (stepI w triv (.push k x)) m () m' ∧ Short m' k n L (j + 1) := by
  obtain ⟨c, f, h1, h2, h3⟩ := h
  obtain ⟨m1, hm, hc⟩ : ∃ m1 : Mem α, m1.blk = (m.mem.put c ⟨L, f⟩ j (some x)).blk ∧
      Returns (construct c (j : Int) (.val x)) m.mem () m1 := by
    refine ⟨{ m.mem.put c ⟨L, f⟩ j (some x) with
        lost := m.mem.lost + (if (f j).isSome then 1 else 0), built := m.mem.built + 1 }, rfl, ?_⟩
    unfold Returns construct
    rw [check_pos (Or.inl h2), pure_bind]
    show ((access c (j : Int)) >>= _) m.mem = _
    rw [bind_returns (show Returns (access c (j : Int)) m.mem (⟨L, f⟩, j) m.mem by
      unfold Returns access
      rw [if_neg h2, h3]
      simp only
      rw [if_pos ⟨by omega, by show (j : Int) < (L : Int); omega⟩, Int.toNat_natCast])]
    rfl
  have hp : Returns (pushBackI w triv { sz := j, cap := n, c := c } (.val x)) m.mem { sz := j + 1, cap := n, c := c } m1 := by
    unfold Returns pushBackI
    rw [if_neg (by show ¬ j + 1 > n; omega)]
    show (construct c (j : Int) (.val x) >>= _) m.mem = _
    rw [bind_returns hc]
    rfl
  refine ⟨{ mem := m1, obj := fun y => if y = k then some { sz := j + 1, cap := n, c := c } else m.obj y }, ?_, c, _,
    if_pos rfl, h2, (congrFun hm c).trans (if_pos rfl)⟩
  unfold Returns
  rw [stepI, bind_getObj h1, bind_returns (lift_returns hp)]
  rfl

theorem Short.stop {w : Nat} {triv : Bool} {m : World α} {k n L : Nat} (h : Short m k n L L) (hL : L < n) (x : α) :
    Faults (stepI w triv (.push k x)) m .outOfBounds := by
  obtain ⟨c, f, h1, h2, h3⟩ := h
  unfold Faults
  rw [stepI, bind_getObj h1]
  refine bind_faults (lift_faults ?_)
  unfold Faults pushBackI
  rw [if_neg (by show ¬ L + 1 > n; omega)]
  show (construct c (L : Int) (.val x) >>= _) m.mem = _
  refine bind_faults ?_
  unfold Faults construct
  rw [check_pos (Or.inl h2), pure_bind]
  show ((access c (L : Int)) >>= _) m.mem = _
  refine bind_faults ?_
  unfold Faults access
  rw [if_neg h2, h3]
  simp only
  rw [if_neg (by show ¬ (_ ∧ (L : Int) < (L : Int)); omega)]

theorem Short.pushes {w : Nat} {triv : Bool} {k n L : Nat} (hL : L < n) (l : List α) {m : World α} {j : Nat}
    (h : Short m k n L j) (hj : j + l.length = L) (x : α) :
    Faults (runI w triv (l.map (.push k) ++ [.push k x])) m .outOfBounds := by
  induction l generalizing m j with
  | nil =>
    obtain rfl : j = L := by simpa using hj
    exact bind_faults (h.stop hL x)
  | cons y l ih =>
    simp only [List.length_cons] at hj
    obtain ⟨m', r1, r2⟩ := h.push (w := w) (triv := triv) hL (by omega) y
    have := ih r2 (by omega)
    unfold Faults at *
    have er : runI w triv ((y :: l).map (.push k) ++ [.push k x]) m = runI w triv (l.map (.push k) ++ [.push k x]) m' :=
      bind_returns r1
    rw [er]
    exact this

end Verif.Vec
