import Verif.VectorDirectWorld
import Verif.Props.VectorPool
import Verif.Spec.VectorGrow

/-! Helper lemmas: where a growing vector lies in the static pool. -/

namespace Verif.Pool

open Prog Vec

variable {α : Type} {md : Sma.Mode} {c : Sma.Cfg} {K : Elem α} {F : Rest} {f : Nat → Nat} {m : Mem α} {s : Sma.St}

/-- The free blocks are the same. -/
def Keep (c : Sma.Cfg) (s s' : Sma.St) : Prop := ∀ b, Sma.FreeBlock c s' b ↔ Sma.FreeBlock c s b

theorem Keep.refl (s : Sma.St) : Keep c s s := fun _ => Iff.rfl

theorem Keep.trans {s1 s2 s3 : Sma.St} (h : Keep c s1 s2) (h' : Keep c s2 s3) : Keep c s1 s3 :=
  fun b => (h' b).trans (h b)

theorem keep_pokeN (hc : Sma.Legal c) {w : Sma.World} (h : Sma.Reach c w) {a : Nat} {n : Int}
    (hm : (a, n) ∈ w.live) {o : Nat} (g : Nat → Sma.Cell) (t : Nat) (ht : 8 * ((o + t : Nat) : Int) < n + 8) :
    Keep c w.st { w.st with mem := pokeN t w.st.mem (a + 8 * o) g } := by
  induction t with
  | zero => rw [pokeN_zero]; exact .refl _
  | succ t ih =>
    have hr := reach_pokeN' h hm g t (o := o) (by omega)
    refine Keep.trans (ih (by omega)) ?_
    rw [pokeN_succ]
    obtain ⟨L, hL⟩ := Sma.reach_inv hc hr
    have hn := hL.2.2 _ hm
    have hup := Sma.up8_pos hn.1
    have hw := hL.1.write hc (v := (a, Sma.up8 n)) (List.mem_map.2 ⟨_, hm, rfl⟩) (y := a + 8 * o + 8 * t)
      (by simp only; omega) (by simp only at *; omega) (g t)
    intro b
    rw [hw.freeBlock, hL.1.freeBlock]

theorem R.put_keep (hc : Sma.Legal c) (h : R c K F f m s)
    {b : Nat} {k : Blk α} (hk : m.blk b = some k) {j : Nat} (hj : j < k.len) (g : Nat → Byte) :
    Keep c s { s with mem := pokeBytes c s.mem (f b + K.size * j) K.size g } := by
  obtain ⟨L, hm, _, h3⟩ := h.live hk
  obtain ⟨i1, _, i3, _⟩ := h.inPool hc hk
  have hslot := mul_slot (w := K.size) hj
  rw [poke_cells s.mem g i1 i3 hslot]
  refine keep_pokeN hc h3 (a := f b) (n := bytes K k.len) hm (o := 0) _ _ ?_
  unfold bytes
  generalize K.size * k.len = y at *
  omega

/-- The pool does the same, and the free blocks stay. -/
def SimK (c : Sma.Cfg) (K : Elem α) (F : Rest) (f : Nat → Nat) (m : Mem α) (s : Sma.St) (p : Prog (Mem α) Unit)
    (q : Prog Sma.St Unit) : Prop :=
  ∀ m', Returns p m () m' → ∃ s', Returns q s () s' ∧ R c K F f m' s' ∧ Keep c s s'

theorem SimK.bind {p p' : Prog (Mem α) Unit} {q q' : Prog Sma.St Unit} (h : SimK c K F f m s p q)
    (h' : ∀ m1 s1, R c K F f m1 s1 → SimK c K F f m1 s1 p' q') :
    SimK c K F f m s (p >>= fun _ => p') (q >>= fun _ => q') := by
  intro m' hr
  obtain ⟨_, m1, r1, r2⟩ := returns_bind hr
  obtain ⟨s1, e1, e2, e3⟩ := h m1 r1
  obtain ⟨s2, g1, g2, g3⟩ := h' m1 s1 e2 m' r2
  exact ⟨s2, (bind_returns e1).trans g1, g2, e3.trans g3⟩

theorem SimK.pure (hR : R c K F f m s) : SimK c K F f m s (Pure.pure ()) (Pure.pure ()) := by
  intro m' hr
  cases hr
  exact ⟨s, rfl, hR, .refl _⟩

theorem SimK.when {Q : Prop} [Decidable Q] {p : Prog (Mem α) Unit} {q : Prog Sma.St Unit} (hR : R c K F f m s)
    (h : SimK c K F f m s p q) : SimK c K F f m s (Prog.when Q p) (Prog.when Q q) := by
  unfold Prog.when
  split
  · exact h
  · exact .pure hR

theorem SimK.forRange {g : Nat → Unit → Prog (Mem α) Unit} {h : Nat → Unit → Prog Sma.St Unit}
    (n lo : Nat) (hR : R c K F f m s) (hb : ∀ i m' s', R c K F f m' s' → SimK c K F f m' s' (g i ()) (h i ())) :
    SimK c K F f m s (Prog.forRange n lo () g) (Prog.forRange n lo () h) := by
  induction n generalizing lo m s with
  | zero => exact .pure hR
  | succ n ih =>
    unfold Prog.forRange
    exact SimK.bind (hb lo m s hR) (fun m1 s1 h1 => ih (lo + 1) h1)

theorem construct_keep (hc : Sma.Legal c) (hR : R c K F f m s) (b : Nat) (i : Int) (e : Arg α) :
    SimK c K F f m s (Vec.construct b i e) ((poolOps md c K).construct (f b) i (argMap f e)) := by
  intro m' hr
  obtain ⟨_, u, r1, hr1⟩ := returns_bind hr
  obtain ⟨_, rfl⟩ := returns_check r1
  obtain ⟨x, u, r2, hr2⟩ := returns_bind hr1
  have := returns_get r2
  subst this
  obtain ⟨⟨k', j⟩, u', r3, hr3⟩ := returns_bind hr2
  obtain ⟨rfl, hb0, k, hk, rfl, hj, hkk⟩ := returns_access r3
  simp only at hkk hj hr3 ⊢
  subst hkk
  cases hr3
  refine ⟨_, ?_, R.congr (hR.put hc hk hj (some x) (K.enc x) ?_) rfl rfl, hR.put_keep hc hk hj _⟩
  · show Returns (_ >>= _) _ _ _
    rw [addr_nat]
    unfold Returns
    rw [bind_returns (check_ok s (touch_ok hc hR hk hj s).1), bind_returns (getArg_ok hc hR r2)]
    exact save_ok hc hR hk hj _
  · rintro y ⟨⟩ t ht; rfl

theorem destroy_keep (hc : Sma.Legal c) (hR : R c K F f m s) (b : Nat) (i : Int) :
    SimK c K F f m s (Vec.destroy K.triv b i) ((poolOps md c K).destroy (f b) i) := by
  intro m' hr
  have hr' := hr
  obtain ⟨_, u, r1, hr1⟩ := returns_bind hr
  obtain ⟨_, rfl⟩ := returns_check r1
  obtain ⟨⟨k', j⟩, u', r3, hr2⟩ := returns_bind hr1
  obtain ⟨rfl, hb0, k, hk, rfl, hj, hkk⟩ := returns_access r3
  simp only at hkk hj hr2 ⊢
  subst hkk
  obtain ⟨_, u, r1, hr3⟩ := returns_bind hr2
  obtain ⟨hok, rfl⟩ := returns_check r1
  cases hr3
  refine ⟨_, ?_, hR.put hc hk hj none
    (K.fin fun t => byteAt c s.mem (f b + K.size * j + t)) (by rintro y ⟨⟩), hR.put_keep hc hk hj _⟩
  show Returns (_ >>= _) _ _ _
  rw [addr_nat]
  unfold Returns
  rw [bind_returns (check_ok s (touch_ok hc hR hk hj s).1), bind_returns (touch_ok hc hR hk hj s).2,
    bind_returns (show Returns Prog.get s s s from rfl), bind_returns (check_ok s ?_)]
  rotate_left
  · rcases hok with hok | hok
    · exact Or.inl hok
    · right
      obtain ⟨x, hx⟩ := Option.isSome_iff_exists.1 hok
      rw [K.dec_enc x _ (fun t ht => ?_)]
      · rfl
      · rw [← hR.cells b _ j x hk hj hx t ht]
        congr 1; omega
  exact save_ok hc hR hk hj _

/-- Free blocks stay free when storage is given back. -/
theorem dealloc_free (hc : Sma.Legal c) (hR : R c K F f m s) {b n : Nat} {m' : Mem α}
    (hr : Returns (Vec.dealloc b n) m () m') :
    ∃ s', Returns ((poolOps md c K).dealloc (f b) n) s () s' ∧ R c K F f m' s' ∧
      ∀ d, Sma.FreeBlock c s d → Sma.FreeBlock c s' d := by
  obtain ⟨s', t, e1, e2, e3, e4, e5⟩ := dealloc_core (md := md) hc hR hr
  refine ⟨s', e1, e2, fun d hd => ?_⟩
  obtain ⟨L, hL⟩ := Sma.reach_inv hc e4
  obtain ⟨hn, hb⟩ := hL.2.2 _ e5
  obtain ⟨s1, L', g1, g2, g3, _⟩ := Sma.dealloc_ok (hL.1.permV (Sma.taken_erase e5)) hc hL.2.1 hn hb
  obtain ⟨r, s2, r1, r2⟩ := returns_bind e3
  obtain ⟨_, rfl⟩ := returns_check r2
  obtain ⟨_, rfl⟩ := r1.det g1
  rw [g2.freeBlock, g3.flat.mem_iff]
  exact List.mem_cons_of_mem _ (hL.1.freeBlock.1 hd)

/-- The grown memory. -/
def grown (m : Mem α) (n : Nat) : Mem α :=
  { m with blk := fun b => if b = m.next then some ⟨n, fun _ => none⟩ else m.blk b, next := m.next + 1 }

/-- A request that only one free block satisfies takes the front of that block. -/
theorem getBlock_fit (hc : Sma.Legal c) (hR : R c K F f m s) {n : Nat} (hn : n ≠ 0) (hfit : Fit K n)
    {d : Sma.Block} (hd : Sma.FreeBlock c s d) (hle : (K.size * n + 7) / 8 * 8 ≤ d.2)
    (huniq : ∀ b, Sma.FreeBlock c s b → (K.size * n + 7) / 8 * 8 ≤ b.2 → b = d) :
    ∃ s1, Returns ((poolOps md c K).alloc n) s d.1 s1 ∧
      ((K.size * n + 7) / 8 * 8 < d.2 →
        Sma.FreeBlock c s1 (d.1 + (K.size * n + 7) / 8 * 8, d.2 - (K.size * n + 7) / 8 * 8)) ∧
      R c K F (place f m.next d.1) (grown m n) s1 := by
  have hpos := bytes_pos (K := K) hn
  have hlt : bytes K n + 8 < 2 ^ 31 := by unfold bytes; unfold Fit at hfit; omega
  obtain ⟨_, _, _, _, _, h3⟩ := hR.held
  have key : ∀ live, Sma.Reach c ⟨s, live⟩ → ∃ s1, Returns (Sma.alloc c (bytes K n)) s d.1 s1 ∧ d.1 ≠ 0 ∧
      ((K.size * n + 7) / 8 * 8 < d.2 →
        Sma.FreeBlock c s1 (d.1 + (K.size * n + 7) / 8 * 8, d.2 - (K.size * n + 7) / 8 * 8)) ∧
      Sma.Reach c ⟨s1, (d.1, bytes K n) :: live⟩ ∧
      ∀ p ∈ live, ∀ x, p.1 ≤ x → x < p.1 + Sma.up8 p.2 → s1.mem x = s.mem x := by
    intro live hl
    obtain ⟨L, hL⟩ := Sma.reach_inv hc hl
    have hdm := Sma.mem_flat.1 (hL.1.freeBlock.1 hd)
    rcases Sma.alloc_ok hL.1 hc hL.2.1 hpos hlt with
      ⟨g, _⟩ | ⟨i, pre, b, post, s1, L', g1, g2, g3, g4, g5, g6, g7, g8⟩
    · obtain ⟨i, hi, hb⟩ := hdm
      have := g i hi d hb
      rw [up8_bytes] at this
      omega
    · rw [up8_bytes] at g3 g5 g8
      have hb : b = d := huniq b (hL.1.freeBlock.2 (Sma.mem_flat.2 ⟨i, g1, by rw [g2]; simp⟩)) g3
      subst hb
      have h0 : b.1 ≠ 0 := (g5.fitsV (b := (b.1, (K.size * n + 7) / 8 * 8)) List.mem_cons_self).ok.1
      refine ⟨s1, g4, h0, fun hlt' => ?_, Sma.reach_alloc hl hpos hlt g4 h0, ?_⟩
      · rcases g8 with ⟨e, _⟩ | ⟨_, e⟩
        · omega
        · exact g5.freeBlock.2 (e.flat.mem_iff.2 List.mem_cons_self)
      · intro p hp x hx1 hx2
        exact g6 (p.1, Sma.up8 p.2) (List.mem_map.2 ⟨p, hp, rfl⟩) x hx1 hx2
  obtain ⟨s1, k1, k2, k3, _⟩ := key _ h3
  have hal : Returns ((poolOps md c K).alloc n) s d.1 s1 := by
    show Returns (Sma.getBlock md c _) s d.1 s1
    rw [byteCount_fit hfit]
    cases md with
    | direct => exact k1
    | port =>
      show Returns (Sma.portAlloc c _) s d.1 s1
      unfold Returns Sma.portAlloc
      rw [bind_returns k1, if_neg k2]
      rfl
  refine ⟨s1, hal, k3, hR.grow hc k2 fun live hl => ?_⟩
  obtain ⟨s2, l1, _, _, l2, l3⟩ := key live hl
  obtain ⟨_, rfl⟩ := k1.det l1
  exact ⟨l2, l3⟩

/-- `resize` to a larger size when only one free block is large enough. -/
theorem resize_grow (hc : Sma.Legal c) (hR : R c K F f m s) {v v' : Vec} (hv : v.c < m.next)
    {n : Nat} (hn : n ≠ 0) (hfit : Fit K n)
    {d : Sma.Block} (hd : Sma.FreeBlock c s d) (hle : (K.size * n + 7) / 8 * 8 ≤ d.2)
    (huniq : ∀ b, Sma.FreeBlock c s b → (K.size * n + 7) / 8 * 8 ≤ b.2 → b = d)
    {m' : Mem α} (hr : Returns (Vec.resize K.triv v n) m v' m') :
    ∃ f' s', Returns (resize (poolOps md c K) (vmap f v) n) s (vmap f' v') s' ∧ R c K F f' m' s' ∧
      v'.cap = n ∧ f' v'.c = d.1 ∧ ((K.size * n + 7) / 8 * 8 < d.2 →
        Sma.FreeBlock c s' (d.1 + (K.size * n + 7) / 8 * 8, d.2 - (K.size * n + 7) / 8 * 8)) := by
  obtain ⟨s1, a1, a2, a3⟩ := getBlock_fit (md := md) hc hR hn hfit hd hle huniq
  unfold Vec.resize Vec.resizeWith at hr
  rw [if_neg hn] at hr
  obtain ⟨b, m1, r1, hr1⟩ := returns_bind hr
  cases r1
  have hvf : place f m.next d.1 v.c = f v.c := by unfold place; rw [if_neg (by omega)]
  have hdf : place f m.next d.1 m.next = d.1 := by unfold place; rw [if_pos rfl]
  obtain ⟨u, m2, r2, r3⟩ := returns_bind hr1
  cases r3
  have hloop : ∃ s2, Returns (Prog.when (f v.c ≠ 0) do
      dassert (v.cap ≠ 0)
      forRange v.sz 0 () fun i _ => do
        Prog.when (i < n) ((poolOps md c K).construct d.1 i (.ref (f v.c) i))
        (poolOps md c K).destroy (f v.c) i
      (poolOps md c K).dealloc (f v.c) v.cap) s1 () s2 ∧ R c K F (place f m.next d.1) m' s2 ∧
      ∀ b, Sma.FreeBlock c s1 b → Sma.FreeBlock c s2 b := by
    have hz := hR.zero v.c
    by_cases h0 : v.c = 0
    · rw [show Prog.when (v.c ≠ 0) _ = Pure.pure () from if_neg (by simpa using h0)] at r2
      cases r2
      rw [show Prog.when (f v.c ≠ 0) _ = Pure.pure () from if_neg (by simpa using hz.2 h0)]
      exact ⟨s1, rfl, a3, fun _ h => h⟩
    · rw [show Prog.when (v.c ≠ 0) _ = _ from if_pos h0] at r2
      rw [show Prog.when (f v.c ≠ 0) _ = _ from if_pos (fun e => h0 (hz.1 e))]
      obtain ⟨_, m3, q1, q2⟩ := returns_bind r2
      obtain ⟨hcap, rfl⟩ := returns_check q1
      obtain ⟨_, m4, q3, q4⟩ := returns_bind q2
      have hl : SimK c K F (place f m.next d.1) (grown m n) s1
          (forRange v.sz 0 () fun i _ => do
            Prog.when (i < n) (Vec.construct m.next i (.ref v.c i))
            Vec.destroy K.triv v.c i)
          (forRange v.sz 0 () fun i _ => do
            Prog.when (i < n) ((poolOps md c K).construct d.1 i (.ref (f v.c) i))
            (poolOps md c K).destroy (f v.c) i) := by
        refine SimK.forRange _ _ a3 fun i m' s' h' => SimK.bind (SimK.when h' ?_) fun m1 s1 h1 => ?_
        · have := construct_keep (md := md) hc h' m.next i (.ref v.c i)
          rwa [argMap, hvf, hdf] at this
        · have := destroy_keep (md := md) hc h1 v.c i
          rwa [hvf] at this
      obtain ⟨s2, e1, e2, e3⟩ := hl m4 q3
      obtain ⟨s3, g1, g2, g3⟩ := dealloc_free (md := md) hc e2 q4
      rw [hvf] at g1
      refine ⟨s3, ?_, g2, fun b hb => g3 b ((e3 b).2 hb)⟩
      unfold Returns
      rw [dassert_pos hcap, pure_bind, bind_returns e1]
      exact g1
  obtain ⟨s2, e1, e2, e3⟩ := hloop
  refine ⟨_, s2, ?_, e2, rfl, hdf, fun h => e3 _ (a2 h)⟩
  unfold Returns resize
  rw [if_neg hn, bind_returns a1]
  refine (bind_returns e1).trans ?_
  show some (Except.ok _) = some (Except.ok _)
  simp only [vmap, hdf]
  rfl

/-- `push_back` on a vector with room for the element. -/
theorem push_room (hc : Sma.Legal c) (hR : R c K F f m s) {v v' : Vec} {x : α} (hlt : v.sz < v.cap)
    {m' : Mem α} (hr : Returns (Vec.pushBack K.triv v (.val x)) m v' m') :
    ∃ s', Returns (pushBack (poolOps md c K) (vmap f v) (.val x)) s (vmap f v') s' ∧ R c K F f m' s' ∧
      v'.c = v.c ∧ v'.cap = v.cap ∧ Keep c s s' := by
  unfold Vec.pushBack Vec.pushBackWith at hr
  rw [if_neg (by omega), pure_bind] at hr
  obtain ⟨_, m1, r1, r2⟩ := returns_bind hr
  cases r2
  obtain ⟨s', e1, e2, e3⟩ := construct_keep (md := md) hc hR v.c v.sz (.val x) _ r1
  refine ⟨s', ?_, e2, rfl, rfl, e3⟩
  unfold Returns pushBack
  rw [if_neg (by show ¬ v.sz + 1 > v.cap; omega), pure_bind]
  exact (bind_returns e1).trans rfl

/-- `push_back` on a full vector when only one free block is large enough. -/
theorem push_grow (hc : Sma.Legal c) (hR : R c K F f m s) {v v' : Vec} {x : α} (hv : v.c < m.next)
    (hfull : v.cap < v.sz + 1) {n : Nat} (hn : n = if v.sz ≠ 0 then 2 * v.sz else 2) (hfit : Fit K n)
    {d : Sma.Block} (hd : Sma.FreeBlock c s d) (hle : (K.size * n + 7) / 8 * 8 ≤ d.2)
    (huniq : ∀ b, Sma.FreeBlock c s b → (K.size * n + 7) / 8 * 8 ≤ b.2 → b = d)
    {m' : Mem α} (hr : Returns (Vec.pushBack K.triv v (.val x)) m v' m') :
    ∃ f' s', Returns (pushBack (poolOps md c K) (vmap f v) (.val x)) s (vmap f' v') s' ∧ R c K F f' m' s' ∧
      v'.cap = n ∧ f' v'.c = d.1 ∧ ((K.size * n + 7) / 8 * 8 < d.2 →
        Sma.FreeBlock c s' (d.1 + (K.size * n + 7) / 8 * 8, d.2 - (K.size * n + 7) / 8 * 8)) := by
  have hn0 : n ≠ 0 := by rw [hn]; split <;> omega
  unfold Vec.pushBack Vec.pushBackWith at hr
  rw [if_pos hfull] at hr
  have hr' : Returns (Vec.resize K.triv v n >>= fun v => do
      Vec.construct v.c v.sz (.val x)
      Pure.pure { v with sz := v.sz + 1 }) m v' m' := by
    rw [hn]
    by_cases h0 : v.sz ≠ 0
    · rw [if_pos h0] at hr ⊢; exact hr
    · rw [if_neg h0] at hr ⊢; exact hr
  obtain ⟨u, m1, r1, r2⟩ := returns_bind hr'
  obtain ⟨_, m2, r3, r4⟩ := returns_bind r2
  cases r4
  obtain ⟨f', s1, e1, e2, e3, e4, e5⟩ := resize_grow (md := md) hc hR hv hn0 hfit hd hle huniq r1
  obtain ⟨s2, g1, g2, g3⟩ := construct_keep (md := md) hc e2 u.c u.sz (.val x) _ r3
  refine ⟨f', s2, ?_, g2, e3, e4, fun h => (g3 _).2 (e5 h)⟩
  have hp : pushBack (poolOps md c K) (vmap f v) (.val x) =
      resize (poolOps md c K) (vmap f v) n >>= (fun v => do
        (poolOps md c K).construct v.c v.sz (.val x)
        Pure.pure { v with sz := v.sz + 1 }) := by
    unfold pushBack
    rw [if_pos (show (vmap f v).sz + 1 > (vmap f v).cap from hfull), hn]
    by_cases h0 : v.sz ≠ 0
    · rw [if_pos (show (vmap f v).sz ≠ 0 from h0), if_pos h0]; rfl
    · rw [if_neg (show ¬ (vmap f v).sz ≠ 0 from h0), if_neg h0]
  rw [hp]
  refine (bind_returns e1).trans ((bind_returns g1).trans rfl)

/-- When no free block is large enough, not even after merging, the request is refused. -/
theorem getBlock_none (hc : Sma.Legal c) {live : List (Nat × Int)} (h : Sma.Reach c ⟨s, live⟩) {n : Nat}
    (hn : n ≠ 0) (hfit : Fit K n)
    (hno : ∀ t, Sma.Reach c ⟨t, live⟩ → ∀ b, Sma.FreeBlock c t b → b.2 < (K.size * n + 7) / 8 * 8) :
    Faults ((poolOps md c K).alloc n) s .crash ∨ ∃ s', Returns ((poolOps md c K).alloc n) s 0 s' := by
  have hpos := bytes_pos (K := K) hn
  have hlt : bytes K n + 8 < 2 ^ 31 := by unfold bytes; unfold Fit at hfit; omega
  have hal : (poolOps md c K).alloc n = Sma.getBlock md c (bytes K n) := by
    show Sma.getBlock md c _ = _
    rw [byteCount_fit hfit]
  rw [hal]
  cases md with
  | port =>
    left
    obtain ⟨t, ht, _⟩ := Sma.sma_merge hc h
    refine (Sma.sma_port_alloc_partial hc h hpos hlt ht).2 ?_
    rintro ⟨b, hb, hle⟩
    rw [up8_bytes] at hle
    have := hno t (Sma.reach_merge h ht) b hb
    omega
  | direct =>
    right
    obtain ⟨a, s', e1, e2, e3⟩ := Sma.sma_success_partial hc h hpos hlt
    have ha : a = 0 := e2.2 (by
      rintro ⟨b, hb, hle⟩
      rw [up8_bytes] at hle
      have := hno s h b hb
      omega)
    exact ⟨s', ha ▸ e1⟩

/-- A refused request stops `push_back`. -/
theorem push_refused {v : Vec} {x : α} (hfull : v.cap < v.sz + 1) (h0 : v.c = 0 → v.sz = 0)
    (h1 : v.c ≠ 0 → v.cap ≠ 0) {n : Nat} (hn : n = if v.sz ≠ 0 then 2 * v.sz else 2)
    (hal : Faults ((poolOps md c K).alloc n) s .crash ∨ ∃ s', Returns ((poolOps md c K).alloc n) s 0 s') :
    Faults (pushBack (poolOps md c K) v (.val x)) s .crash := by
  have hn0 : n ≠ 0 := by rw [hn]; split <;> omega
  have hp : pushBack (poolOps md c K) v (.val x) =
      resize (poolOps md c K) v n >>= (fun v => do
        (poolOps md c K).construct v.c v.sz (.val x)
        Pure.pure { v with sz := v.sz + 1 }) := by
    unfold pushBack
    rw [if_pos hfull, hn]
    by_cases h0 : v.sz ≠ 0
    · rw [if_pos h0, if_pos h0]
    · rw [if_neg h0, if_neg h0]
  rw [hp]
  have hres : resize (poolOps md c K) v n = (poolOps md c K).alloc n >>= (fun d => do
      Prog.when (v.c ≠ 0) do
        dassert (v.cap ≠ 0)
        forRange v.sz 0 () fun i _ => do
          Prog.when (i < n) ((poolOps md c K).construct d i (.ref v.c i))
          (poolOps md c K).destroy v.c i
        (poolOps md c K).dealloc v.c v.cap
      Pure.pure { sz := if n < v.sz then n else v.sz, cap := n, c := d }) := by
    unfold resize
    rw [if_neg hn0]
  rw [hres]
  have hbad : ∀ (e : Arg α) s, Faults ((poolOps md c K).construct 0 ((0 : Nat) : Int) e) s .crash := by
    intro e s
    show Faults (_ >>= _) s _
    refine bind_faults ?_
    have : addr K 0 ((0 : Nat) : Int) = 0 := by rw [addr_nat]; omega
    rw [this]
    rfl
  rcases hal with h | ⟨s', h⟩
  · exact bind_faults (bind_faults h)
  rw [bind_assoc]
  unfold Faults
  rw [bind_returns h]
  rw [bind_assoc]
  by_cases hc0 : v.c = 0
  · have hz := h0 hc0
    rw [show Prog.when (v.c ≠ 0) _ = Pure.pure () from if_neg (by simpa using hc0), pure_bind, pure_bind]
    refine bind_faults ?_
    show Faults ((poolOps md c K).construct 0 ((if n < v.sz then n else v.sz : Nat) : Int) _) s' _
    rw [hz, if_neg (by omega)]
    exact hbad _ _
  · have hcap := h1 hc0
    rw [show Prog.when (v.c ≠ 0) _ = _ from if_pos hc0, dassert_pos hcap, pure_bind]
    refine bind_faults (bind_faults ?_)
    obtain ⟨k, hk⟩ : ∃ k, v.sz = k + 1 := ⟨v.sz - 1, by omega⟩
    rw [hk]
    unfold forRange
    refine bind_faults (bind_faults ?_)
    rw [show Prog.when (0 < n) _ = _ from if_pos (by omega)]
    exact hbad _ _

/-! ## A vector that is filled element by element -/

/-- An even number of objects takes whole cells when their size is a multiple of four. -/
theorem even_cells (hq : K.size % 4 = 0) {n : Nat} (hn : n % 2 = 0) : K.size * n % 8 = 0 := by
  obtain ⟨q, e⟩ : ∃ q, K.size = 4 * q := ⟨K.size / 4, by omega⟩
  obtain ⟨z, e'⟩ : ∃ z, n = 2 * z := ⟨n / 2, by omega⟩
  rw [e, e', show 4 * q * (2 * z) = 8 * (q * z) by
    rw [Nat.mul_assoc, Nat.mul_left_comm q 2 z, ← Nat.mul_assoc]]
  omega

/-- The storage of the vector starts right after the blocks that it has used before, the space behind
it is one free block. -/
structure Geom (c : Sma.Cfg) (K : Elem α) (f : Nat → Nat) (s : Sma.St) (v : Vec) : Prop where
  place : f v.c + 2 * K.size = c.base + K.size * v.cap
  tail : f v.c + K.size * v.cap < c.base + c.M →
    Sma.FreeBlock c s (f v.c + K.size * v.cap, c.base + c.M - (f v.c + K.size * v.cap))
  pow : ∃ k, v.cap = 2 ^ (k + 1)

theorem Geom.keep {v v' : Vec} {s' : Sma.St} (h : Geom c K f s v) (hk : Keep c s s') (hc : v'.c = v.c)
    (hcap : v'.cap = v.cap) : Geom c K f s' v' :=
  ⟨by rw [hc, hcap]; exact h.place, fun hlt => by
    rw [hc, hcap] at *
    exact (hk _).2 (h.tail hlt), by rw [hcap]; exact h.pow⟩

/-- A vector with the elements `l` alone in a pool that was fresh when it was created. -/
def Alone (c : Sma.Cfg) (K : Elem α) (F : Rest) (f : Nat → Nat) (m : Mem α) (s : Sma.St) (v : Vec) (l : List α) : Prop :=
  R c K F f m s ∧ Vec.Rep m v l ∧
    (v.c = 0 ∧ (∀ b, Sma.FreeBlock c s b ↔ b = (c.base, c.M)) ∨ v.c ≠ 0 ∧ Geom c K f s v)

/-- One more element. -/
theorem push_alone (hc : Sma.Legal c) (hM : 2 * c.M + 8 < 2 ^ 31) (hK : 2 * K.size + 8 < 2 ^ 31) (hq : K.size % 4 = 0)
    {v : Vec} {l : List α} (h : Alone c K F f m s v l) (x : α) :
    (Grows K.size c.M (l.length + 1) ∧ ∃ f' m' v' s',
        Returns (pushBack (poolOps md c K) (vmap f v) (.val x)) s (vmap f' v') s' ∧
        Alone c K F f' m' s' v' (l ++ [x])) ∨
      (¬ Grows K.size c.M (l.length + 1) ∧
        Faults (pushBack (poolOps md c K) (vmap f v) (.val x)) s .crash) := by
  obtain ⟨hR, hrep, hcase⟩ := h
  obtain ⟨v', m', r1, p1, p2, p3, p4, p5, p6⟩ :=
    pushBack_full (triv := K.triv) (e := .val x) hR.wf hrep (show Returns (Arg.get (.val x)) m x m from rfl)
      (fun _ => Or.inl rfl)
  have hsz := hrep.size
  have hv := hrep.fresh
  have hw := K.pos
  have hq2 := even_cells hq (n := 2) rfl
  rcases hcase with ⟨h0, hfree⟩ | ⟨h0, hg⟩
  · -- no storage yet
    obtain ⟨rfl, rfl⟩ := hrep.null h0
    have hcap2 : v'.cap = 2 := p2
    have hmem := (hfree (c.base, c.M)).2 rfl
    by_cases hfits : 2 * K.size ≤ c.M
    · left
      refine ⟨⟨0, by simp, by simp; omega⟩, ?_⟩
      obtain ⟨f', s', e1, e2, e3, e4, e5⟩ := push_grow (md := md) (n := 2) hc hR hv (by show 0 < 0 + 1; omega)
        rfl (by unfold Fit; omega) hmem (by simp only; omega) (fun b hb _ => (hfree b).1 hb) r1
      have hc0 : v'.c ≠ 0 := by
        intro e
        have := (p1.null e).2
        simp at this
      refine ⟨f', m', v', s', e1, e2, p1, Or.inr ⟨hc0, ?_, ?_, 0, by rw [e3]⟩⟩
      · rw [e3, e4]; simp only; omega
      · intro hlt
        rw [e3, e4] at *
        simp only at *
        rw [show (K.size * 2 + 7) / 8 * 8 = K.size * 2 by omega] at e5
        have := e5 (by omega)
        rwa [show c.base + c.M - (c.base + K.size * 2) = c.M - K.size * 2 by omega]
    · right
      refine ⟨?_, ?_⟩
      · rintro ⟨k, hk1, hk2⟩
        have : 2 ≤ 2 * 2 ^ (k + 1) - 2 := by
          have := Nat.pow_le_pow_right (n := 2) (by omega) (show 1 ≤ k + 1 by omega)
          omega
        have := Nat.mul_le_mul_left K.size this
        omega
      · obtain ⟨_, _, _, _, _, h3⟩ := hR.held
        refine push_refused (n := 2) (by show 0 < 0 + 1; omega) (fun _ => rfl) (fun h => ?_) rfl
          (getBlock_none hc h3 (by omega) (by unfold Fit; omega) ?_)
        · exact absurd ((hR.zero _).2 h0) h
        · intro t ht b hb
          obtain ⟨⟨_, g⟩, _⟩ := (Sma.sma_blocks_partial hc ht).2.2.2.1 b hb
          omega
  · obtain ⟨hcap, hle, g, hblk, _⟩ := hrep.buf h0
    obtain ⟨k, hk⟩ := hg.pow
    obtain ⟨i1, i2, _, _⟩ := hR.inPool hc hblk
    have hpl := hg.place
    have hmul : K.size * 2 ≤ K.size * v.cap := by
      refine Nat.mul_le_mul_left _ ?_
      rw [hk]
      have := Nat.pow_le_pow_right (n := 2) (by omega) (show 1 ≤ k + 1 by omega)
      omega
    have hqv := even_cells hq (n := v.cap) (by rw [hk, Nat.pow_succ]; omega)
    simp only at i2
    by_cases hlt : l.length < v.cap
    · left
      obtain ⟨s', e1, e2, e3, e4, e5⟩ := push_room (md := md) hc hR (by omega) r1
      refine ⟨⟨k, by omega, ?_⟩, f, m', v', s', e1, e2, p1, Or.inr ⟨by rw [e3]; exact h0, hg.keep e5 e3 e4⟩⟩
      rw [← hk, Nat.mul_sub, Nat.mul_left_comm]
      omega
    · have hfull : l.length = v.cap := by omega
      have hn : 2 * v.cap = if v.sz ≠ 0 then 2 * v.sz else 2 := by
        rw [if_pos (by omega)]; omega
      have h2 : K.size * (2 * v.cap) = 2 * (K.size * v.cap) := Nat.mul_left_comm _ _ _
      have hfit : Fit K (2 * v.cap) := by unfold Fit; omega
      -- free blocks lie before the storage or behind it
      have hgeo : ∀ t live, Sma.Reach c ⟨t, live⟩ → (f v.c, bytes K v.cap) ∈ live → ∀ b, Sma.FreeBlock c t b →
          b.1 + b.2 ≤ f v.c ∨ f v.c + K.size * v.cap ≤ b.1 ∧ b.1 + b.2 ≤ c.base + c.M ∧ 0 < b.2 := by
        intro t live ht hm b hb
        obtain ⟨_, _, g3, g4, _⟩ := Sma.sma_blocks_partial hc ht
        have := g3 _ hm b hb
        rw [up8_bytes] at this
        obtain ⟨⟨q1, q2⟩, q3⟩ := g4 b hb
        unfold Sma.Disj at this
        simp only at this
        omega
      have hbase : ∀ t live, Sma.Reach c ⟨t, live⟩ → ∀ b, Sma.FreeBlock c t b → c.base ≤ b.1 :=
        fun t live ht b hb => ((Sma.sma_blocks_partial hc ht).2.2.2.1 b hb).1.1
      obtain ⟨_, hmem, _, h3⟩ := hR.live hblk
      by_cases hfits : 4 * (K.size * v.cap) ≤ c.M + 2 * K.size
      · left
        have htail := hg.tail (by omega)
        refine ⟨⟨k + 1, ?_, ?_⟩, ?_⟩
        · rw [hfull, hk]
          have := Nat.pow_lt_pow_right (a := 2) (by omega) (show k + 1 < k + 1 + 1 by omega)
          omega
        · rw [Nat.pow_succ 2 (k + 1), ← hk, Nat.mul_comm v.cap 2, Nat.mul_sub, Nat.mul_left_comm, h2]
          omega
        have huniq : ∀ b, Sma.FreeBlock c s b → K.size * (2 * v.cap) ≤ b.2 →
            b = (f v.c + K.size * v.cap, c.base + c.M - (f v.c + K.size * v.cap)) := by
          intro b hb hle
          rcases hgeo s _ h3 hmem b hb with hb1 | ⟨hb1, hb2, hb3⟩
          · have := hbase s _ h3 b hb; omega
          · refine Classical.byContradiction fun hne => ?_
            have := (Sma.sma_blocks_partial hc h3).2.2.2.2 _ _ hb htail hne
            unfold Sma.Disj at this
            simp only at this
            omega
        obtain ⟨f', s', e1, e2, e3, e4, e5⟩ := push_grow (md := md) hc hR hv (by omega) hn hfit htail
          (by simp only; omega) (fun b hb hle => huniq b hb (by omega)) r1
        rw [show (K.size * (2 * v.cap) + 7) / 8 * 8 = K.size * (2 * v.cap) by omega] at e5
        have hc0 : v'.c ≠ 0 := by
          intro e
          have := (p1.null e).2
          simp at this
        refine ⟨f', m', v', s', e1, e2, p1, Or.inr ⟨hc0, ?_, ?_, k + 1, ?_⟩⟩
        · rw [e3, e4]; simp only; omega
        · intro hlt
          rw [e3, e4] at *
          simp only at *
          have := e5 (by omega)
          rwa [show c.base + c.M - (f v.c + K.size * v.cap + K.size * (2 * v.cap)) =
            c.base + c.M - (f v.c + K.size * v.cap) - K.size * (2 * v.cap) by omega]
        · rw [e3, hk, Nat.pow_succ 2 (k + 1)]; omega
      · right
        refine ⟨?_, ?_⟩
        · rintro ⟨k', hk1, hk2⟩
          have hkk : k + 1 < k' + 1 := by
            refine Classical.byContradiction fun hno => ?_
            have := Nat.pow_le_pow_right (n := 2) (by omega) (show k' + 1 ≤ k + 1 by omega)
            omega
          have hpow := Nat.pow_le_pow_right (n := 2) (by omega) (show k + 1 + 1 ≤ k' + 1 by omega)
          rw [Nat.pow_succ 2 (k + 1), ← hk] at hpow
          have := Nat.mul_le_mul_left K.size (show 2 * (2 * v.cap) - 2 ≤ 2 * 2 ^ (k' + 1) - 2 by omega)
          rw [Nat.mul_sub, Nat.mul_left_comm, h2] at this
          omega
        · refine push_refused (by show v.cap < v.sz + 1; omega)
            (fun h => absurd ((hR.zero _).1 h) h0) (fun _ => hcap) hn
            (getBlock_none hc h3 (by omega) hfit ?_)
          intro t ht b hb
          rcases hgeo t _ ht hmem b hb with hb1 | ⟨hb1, hb2, hb3⟩
          · have := hbase t _ ht b hb; omega
          · omega

theorem Grows.mono {w p n n' : Nat} (h : Grows w p n) (hle : n' ≤ n) : Grows w p n' := by
  obtain ⟨k, h1, h2⟩ := h
  exact ⟨k, by omega, h2⟩

theorem Alone.holds (hc : Sma.Legal c) {v : Vec} {l : List α} (h : Alone c K F f m s v l) {w : PWorld} {k : Nat}
    (hs : w.pool = s) (hv : w.obj k = some (vmap f v)) : Holds md c K w k l := by
  obtain ⟨hR, hrep, _⟩ := h
  subst hs
  exact ⟨_, hv, hrep.size, iterate_pool hc hR (iterate_ok hrep)⟩

/-- Elements added one by one. -/
theorem pushes_alone (hc : Sma.Legal c) (hM : 2 * c.M + 8 < 2 ^ 31) (hK : 2 * K.size + 8 < 2 ^ 31) (hq : K.size % 4 = 0)
    (xs : List α) {v : Vec} {l : List α} {w : PWorld} (h : Alone c K F f m w.pool v l)
    (hv : w.obj 0 = some (vmap f v)) :
    ((xs = [] ∨ Grows K.size c.M (l.length + xs.length)) → ∃ w', 
        Returns (run md c K (xs.map (.push 0))) w () w' ∧ Holds md c K w' 0 (l ++ xs)) ∧
      (¬ (xs = [] ∨ Grows K.size c.M (l.length + xs.length)) →
        Faults (run md c K (xs.map (.push 0))) w .crash) := by
  induction xs generalizing v l w f m with
  | nil => exact ⟨fun _ => ⟨w, rfl, by rw [List.append_nil]; exact h.holds hc rfl hv⟩, fun h => absurd (Or.inl rfl) h⟩
  | cons x xs ih =>
    have hg : w.obj 0 = some (vmap f v) → Returns (getObj 0) w (vmap f v) w := fun h => by
      unfold Returns getObj; rw [h]
    rcases push_alone (md := md) hc hM hK hq h x with ⟨g1, f', m', v', s', g2, g3⟩ | ⟨g1, g2⟩
    · have hst : Returns (step md c K (.push 0 x)) w ()
          ⟨s', fun i => if i = 0 then some (vmap f' v') else w.obj i⟩ := by
        show Returns (_ >>= _) _ _ _
        unfold Returns
        rw [bind_returns (hg hv), bind_returns (lift_returns g2)]
        rfl
      have := ih (w := ⟨s', fun i => if i = 0 then some (vmap f' v') else w.obj i⟩) g3 rfl
      rw [List.append_assoc, List.length_append] at this
      have hlen : l.length + ([x] : List α).length + xs.length = l.length + (x :: xs).length := by
        simp only [List.length_cons, List.length_nil]; omega
      rw [hlen] at this
      refine ⟨fun hgr => ?_, fun hgr => ?_⟩
      · obtain ⟨w', r1, r2⟩ := this.1 (Or.inr (hgr.resolve_left (by simp)))
        exact ⟨w', (bind_returns hst).trans r1, r2⟩
      · refine (bind_returns hst).trans (this.2 ?_)
        rintro (rfl | hgr')
        · exact hgr (Or.inr g1)
        · exact hgr (Or.inr hgr')
    · refine ⟨fun hgr => ?_, fun _ => ?_⟩
      · exfalso
        exact g1 ((hgr.resolve_left (by simp)).mono (by simp only [List.length_cons]; omega))
      · refine bind_faults ?_
        show Faults (_ >>= _) _ _
        unfold Faults
        rw [bind_returns (hg hv)]
        exact bind_faults (lift_faults g2)

/-- Elements added one by one to a vector with room for them. -/
theorem pushes_room (hc : Sma.Legal c) (xs : List α) {v : Vec} {l : List α} {w : PWorld}
    (hR : R c K F f m w.pool) (hrep : Vec.Rep m v l) (hv : w.obj 0 = some (vmap f v))
    (hle : l.length + xs.length ≤ v.cap) :
    ∃ w', Returns (run md c K (xs.map (.push 0))) w () w' ∧ Holds md c K w' 0 (l ++ xs) := by
  induction xs generalizing v l w m with
  | nil => exact ⟨w, rfl, by
      rw [List.append_nil]
      exact ⟨_, hv, hrep.size, iterate_pool hc hR (iterate_ok hrep)⟩⟩
  | cons x xs ih =>
    obtain ⟨v', m', r1, p1, p2, p3, p4, p5, p6⟩ :=
      pushBack_full (triv := K.triv) (e := .val x) hR.wf hrep (show Returns (Arg.get (.val x)) m x m from rfl)
        (fun _ => Or.inl rfl)
    simp only [List.length_cons] at hle
    obtain ⟨s', e1, e2, e3, e4, e5⟩ := push_room (md := md) hc hR (by rw [hrep.size]; omega) r1
    obtain ⟨w', q1, q2⟩ := ih (w := ⟨s', fun i => if i = 0 then some (vmap f v') else w.obj i⟩) e2 p1 rfl
      (by simp only [List.length_append, List.length_cons, List.length_nil]; omega)
    refine ⟨w', ?_, by rwa [List.append_assoc] at q2⟩
    refine (bind_returns (a := ()) ?_).trans q1
    show Returns (_ >>= _) _ _ _
    unfold Returns
    rw [bind_returns (getObj_returns hv), bind_returns (lift_returns e1)]
    rfl

end Verif.Pool
