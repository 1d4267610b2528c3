import Verif.Vector

/-! Helper lemmas for the `Vector` model: what each function does to a vector that
represents a given list. -/

namespace Verif.Vec

open Prog

variable {α : Type}

@[simp] theorem put_blk (m : Mem α) (b : Nat) (k : Blk α) (j : Nat) (o : Option α) (x : Nat) :
    (m.put b k j o).blk x =
      if x = b then some { k with slot := fun y => if y = j then o else k.slot y } else m.blk x :=
  rfl
@[simp] theorem put_next (m : Mem α) (b : Nat) (k : Blk α) (j : Nat) (o : Option α) :
    (m.put b k j o).next = m.next := rfl
@[simp] theorem put_lost (m : Mem α) (b : Nat) (k : Blk α) (j : Nat) (o : Option α) :
    (m.put b k j o).lost = m.lost := rfl

/-- A slot filled by a constructor. -/
def Mem.made (m : Mem α) (b : Nat) (k : Blk α) (j : Nat) (x : α) : Mem α :=
  { m.put b k j (some x) with built := m.built + 1 }

@[simp] theorem made_blk (m : Mem α) (b : Nat) (k : Blk α) (j : Nat) (a : α) (x : Nat) :
    (m.made b k j a).blk x = (m.put b k j (some a)).blk x := rfl
@[simp] theorem made_next (m : Mem α) (b : Nat) (k : Blk α) (j : Nat) (a : α) :
    (m.made b k j a).next = m.next := rfl
@[simp] theorem made_lost (m : Mem α) (b : Nat) (k : Blk α) (j : Nat) (a : α) :
    (m.made b k j a).lost = m.lost := rfl

/-- A slot assigned to. -/
def Mem.wrote (m : Mem α) (b : Nat) (k : Blk α) (j : Nat) (x : α) : Mem α :=
  { m.put b k j (some x) with moved := m.moved + 1 }

@[simp] theorem wrote_blk (m : Mem α) (b : Nat) (k : Blk α) (j : Nat) (a : α) (x : Nat) :
    (m.wrote b k j a).blk x = (m.put b k j (some a)).blk x := rfl
@[simp] theorem wrote_next (m : Mem α) (b : Nat) (k : Blk α) (j : Nat) (a : α) :
    (m.wrote b k j a).next = m.next := rfl
@[simp] theorem wrote_lost (m : Mem α) (b : Nat) (k : Blk α) (j : Nat) (a : α) :
    (m.wrote b k j a).lost = m.lost := rfl

theorem access_ok {m : Mem α} {b : Nat} {i : Nat} {k : Blk α} (hb : b ≠ 0)
    (hk : m.blk b = some k) (hi : i < k.len) : Returns (access b (i : Int)) m (k, i) m := by
  unfold Returns access
  simp [hb, hk, hi]

theorem read_ok {m : Mem α} {b : Nat} {i : Nat} {k : Blk α} {x : α} (hb : b ≠ 0)
    (hk : m.blk b = some k) (hi : i < k.len) (hx : k.slot i = some x) :
    Returns (read b (i : Int)) m x m := by
  unfold read Returns
  rw [bind_returns (access_ok hb hk hi)]
  simp [hx, Prog.pure_apply]

theorem construct_ok {m : Mem α} {b : Nat} {i : Nat} {k : Blk α} {x : α} {obj : Arg α} (hb : b ≠ 0)
    (hx : Returns obj.get m x m)
    (hk : m.blk b = some k) (hi : i < k.len) (hf : k.slot i = none) :
    Returns (construct b (i : Int) obj) m () (m.made b k i x) := by
  unfold construct Returns
  have h1 : Returns (check (σ := Mem α) (b ≠ 0 ∨ (i : Int) ≠ 0) Fault.crash) m () m := by
    simp [Returns, check, hb]
  rw [bind_returns h1, bind_returns hx, bind_returns (access_ok hb hk hi)]
  simp [Prog.modify, hf, Mem.put, Mem.made]

theorem destroy_ok {triv : Bool} {m : Mem α} {b : Nat} {i : Nat} {k : Blk α} (hb : b ≠ 0)
    (hk : m.blk b = some k) (hi : i < k.len) (hf : triv = true ∨ (k.slot i).isSome) :
    Returns (destroy triv b (i : Int)) m () (m.put b k i none) := by
  unfold destroy Returns
  have h1 : Returns (check (σ := Mem α) (b ≠ 0 ∨ (i : Int) ≠ 0) Fault.crash) m () m := by
    simp [Returns, check, hb]
  rw [bind_returns h1, bind_returns (access_ok hb hk hi)]
  have h2 : Returns (check (σ := Mem α) (triv = true ∨ (k.slot i).isSome) Fault.badDestroy) m () m := by
    simp only [Returns, check, hf, if_true]
  simp only
  rw [bind_returns h2]
  rfl

theorem assign_ok {m : Mem α} {b : Nat} {i : Nat} {k : Blk α} {x y : α} {obj : Arg α} (hb : b ≠ 0)
    (hx : Returns obj.get m x m)
    (hk : m.blk b = some k) (hi : i < k.len) (hf : k.slot i = some y) :
    Returns (assign b (i : Int) obj) m () (m.wrote b k i x) := by
  unfold assign Returns
  rw [bind_returns hx, bind_returns (access_ok hb hk hi)]
  have h2 : Returns (check (σ := Mem α) ((k.slot i).isSome) Fault.uninit) m () m := by
    simp [Returns, check, hf]
  simp only
  rw [bind_returns h2]
  rfl

theorem val_get (x : α) (m : Mem α) : Returns (Arg.val x).get m x m := rfl

/-- `v` is a vector object holding exactly the list `l`: no buffer and `l = []`, or a live
buffer of `v.cap` slots in which precisely the first `l.length` are constructed. -/
structure Rep (m : Mem α) (v : Vec) (l : List α) : Prop where
  null : v.c = 0 → v = Vec.empty ∧ l = []
  buf : v.c ≠ 0 → v.cap ≠ 0 ∧ l.length ≤ v.cap ∧
    ∃ f, m.blk v.c = some ⟨v.cap, f⟩ ∧ ∀ i, f i = l[i]?
  size : v.sz = l.length
  fresh : v.c < m.next

/-- What an operation that turns vector `v` into `v'` may do to memory: the old buffer is
kept or released, the new one is the old one or fresh, nothing else changes, and no object
is lost. -/
structure Frame (m m' : Mem α) (v v' : Vec) : Prop where
  other : ∀ b, b ≠ v.c → b ≠ v'.c → m'.blk b = m.blk b
  gone : v'.c ≠ v.c → v.c ≠ 0 → m'.blk v.c = none
  new : v'.c = v.c ∨ v'.c = 0 ∨ m.next ≤ v'.c
  next : m.next ≤ m'.next
  lost : m'.lost = m.lost

/-- Nothing changed. -/
theorem Frame.refl (m : Mem α) (v : Vec) : Frame m m v v :=
  ⟨fun _ _ _ => rfl, fun h => absurd rfl h, Or.inl rfl, Nat.le_refl _, rfl⟩

/-- Memory well-formedness: unused identifiers and `nullptr` carry no block. -/
structure Mem.WF (m : Mem α) : Prop where
  pos : 0 < m.next
  unused : ∀ b, m.next ≤ b → m.blk b = none
  null : m.blk 0 = none

theorem Frame.trans {m m1 m2 : Mem α} {v v1 v2 : Vec} (hw : m.WF) (h1 : Frame m m1 v v1)
    (h2 : Frame m1 m2 v1 v2) (hn : m2.blk 0 = none) : Frame m m2 v v2 := by
  have e1 := h1.next
  refine ⟨?_, ?_, ?_, Nat.le_trans h1.next h2.next, h2.lost.trans h1.lost⟩
  · intro b hb hb2
    by_cases hb1 : b = v1.c
    · subst hb1
      by_cases h0 : v1.c = 0
      · rw [h0, hn, hw.null]
      · rw [h2.gone (Ne.symm hb2) h0]
        rcases h1.new with h | h | h
        · exact absurd h hb
        · exact absurd h h0
        · exact (hw.unused _ h).symm
    · rw [h2.other b hb1 hb2, h1.other b hb hb1]
  · intro hb h0
    by_cases h : v1.c = v.c
    · rw [← h] at hb h0 ⊢
      exact h2.gone hb h0
    · rw [h2.other v.c (Ne.symm h) (Ne.symm hb)]
      exact h1.gone h h0
  · rcases h2.new with h | h | h
    · rw [h]; exact h1.new
    · exact Or.inr (Or.inl h)
    · right; right; omega

theorem Mem.WF.init : (Mem.init : Mem α).WF := ⟨Nat.one_pos, fun _ _ => rfl, rfl⟩

/-- State of the copying loop of `resize` before iteration `i`. -/
structure CopyInv (m0 : Mem α) (c n : Nat) (v : Vec) (l : List α) (i : Nat) (m : Mem α) : Prop where
  src : m.blk v.c = some ⟨v.cap, fun j => if j < i then none else l[j]?⟩
  dst : c ≠ 0 → m.blk c = some ⟨n, fun j => if j < i ∧ j < n then l[j]? else none⟩
  other : ∀ b, (b = c → c = 0) → b ≠ v.c → m.blk b = m0.blk b
  next : m.next = m0.next
  lost : m.lost = m0.lost

theorem copyLoop {triv : Bool} {m : Mem α} {v : Vec} {l : List α} {c n : Nat} {f : Nat → Option α}
    (hv0 : v.c ≠ 0) (hcap : l.length ≤ v.cap) (hsz : v.sz = l.length)
    (hv : m.blk v.c = some ⟨v.cap, f⟩) (hf : ∀ i, f i = l[i]?)
    (hc : c ≠ v.c) (hn : c = 0 → n = 0)
    (hblk : c ≠ 0 → m.blk c = some ⟨n, fun _ => none⟩) :
    wp (forRange v.sz 0 () fun i _ => do
      when (i < n) (construct c i (.ref v.c i))
      destroy triv v.c i) (fun _ m' => CopyInv m c n v l l.length m') m := by
  have h := wp_forRange (σ := Mem α) (I := fun i _ m' => CopyInv m c n v l i m')
    (f := fun i _ => do
      when (i < n) (construct c i (.ref v.c i))
      destroy triv v.c i) v.sz 0 () m ?_ ?_
  · refine wp_mono h ?_
    intro _ m' h; rw [hsz] at h; simpa using h
  · refine ⟨?_, ?_, fun _ _ _ => rfl, rfl, rfl⟩
    · rw [hv]; simp [funext_iff, hf]
    · intro h; rw [hblk h]; simp
  · intro i _ t _ hi inv
    have hil : i < l.length := by omega
    have hsrc := inv.src
    have hlive : triv = true ∨ ((fun j => if j < i then none else l[j]?) i).isSome := by
      right; simp [hil]
    by_cases hin : i < n
    · have hc0 : c ≠ 0 := fun h => by have := hn h; omega
      rw [wp_bind, wp_when]
      refine ⟨fun _ => ?_, fun h => absurd hin h⟩
      have hread : Returns (Arg.ref (α := α) v.c i).get t l[i] t := by
        refine read_ok hv0 hsrc (show i < v.cap by omega) ?_
        simp [hil]
      have hcon := construct_ok hc0 hread (inv.dst hc0) hin (by simp)
      rw [wp_of_returns hcon]
      have hdes := destroy_ok (triv := triv) (m := t.made c ⟨n, fun j => if j < i ∧ j < n then l[j]? else none⟩ i l[i])
        (b := v.c) (i := i) (k := ⟨v.cap, fun j => if j < i then none else l[j]?⟩) hv0
        (by rw [made_blk, put_blk, if_neg (Ne.symm hc)]; exact hsrc) (show i < v.cap by omega) hlive
      rw [wp_of_returns hdes]
      refine ⟨?_, ?_, ?_, by simp [inv.next], by simp [inv.lost]⟩
      · simp only [made_blk, put_blk, if_true]
        congr 2
        funext y
        grind
      · intro _
        simp only [made_blk, put_blk, if_true, if_neg hc]
        congr 2
        funext y
        grind
      · intro b h1 h2
        have h3 : b ≠ c := fun h => hc0 (h1 h)
        simp only [made_blk, put_blk, if_neg h3, if_neg h2]
        exact inv.other b h1 h2
    · rw [wp_bind, wp_when]
      refine ⟨fun h => absurd h hin, fun _ => ?_⟩
      have hdes := destroy_ok (triv := triv) (m := t)
        (b := v.c) (i := i) (k := ⟨v.cap, fun j => if j < i then none else l[j]?⟩) hv0
        hsrc (show i < v.cap by omega) hlive
      rw [wp_of_returns hdes]
      refine ⟨?_, ?_, ?_, by simp [inv.next], by simp [inv.lost]⟩
      · simp only [made_blk, put_blk, if_true]
        congr 2
        funext y
        grind
      · intro h0
        simp only [made_blk, put_blk, if_neg hc]
        rw [inv.dst h0]
        congr 2
        funext y
        grind
      · intro b h1 h2
        simp only [made_blk, put_blk, if_neg h2]
        exact inv.other b h1 h2


theorem live_zero {k : Blk α} (h : ∀ i, k.slot i = none) : k.live = 0 := by
  simp [Blk.live, h]

theorem dealloc_ok {m : Mem α} {b n : Nat} {k : Blk α} (hk : m.blk b = some k) (hn : k.len = n)
    (hl : ∀ i, k.slot i = none) :
    Returns (dealloc b n) m ()
      { m with blk := fun x => if x = b then none else m.blk x } := by
  unfold Returns dealloc
  simp [hk, hn, live_zero hl]

theorem Rep.mono {m m' : Mem α} {v : Vec} {l : List α} (h : Rep m v l)
    (hb : m'.blk v.c = m.blk v.c) (hn : m.next ≤ m'.next) : Rep m' v l :=
  ⟨h.null, fun h0 => by rw [hb]; exact h.buf h0, h.size, Nat.lt_of_lt_of_le h.fresh hn⟩

theorem Rep.empty {m : Mem α} (hw : m.WF) : Rep m Vec.empty ([] : List α) :=
  ⟨fun _ => ⟨rfl, rfl⟩, fun h => absurd rfl h, rfl, hw.pos⟩

theorem resize_ok {triv : Bool} {m : Mem α} {v : Vec} {l : List α} (hw : m.WF) (hr : Rep m v l)
    (n : Nat) :
    wp (resize triv v n) (fun v' m' => Rep m' v' (l.take n) ∧ v'.cap = n ∧ Frame m m' v v' ∧ m'.WF ∧
      (v'.c ≠ v.c ∨ v'.c = 0)) m := by
  unfold resize resizeWith
  rw [wp_bind]
  -- the new buffer
  have halloc : wp (if n = 0 then pure 0 else alloc n)
      (fun c m1 => (c = 0 ↔ n = 0) ∧ (c = 0 ∨ c = m.next) ∧ (c ≠ 0 → m1.blk c = some ⟨n, fun _ => none⟩) ∧
        (∀ b, (b = c → c = 0) → m1.blk b = m.blk b) ∧ m.next ≤ m1.next ∧ (c < m1.next) ∧ m1.lost = m.lost ∧
        (∀ b, m1.next ≤ b → m1.blk b = none)) m := by
    by_cases h0 : n = 0
    · simp only [h0, if_true]
      rw [wp_pure]
      exact ⟨by simp, Or.inl rfl, fun h => absurd rfl h, fun _ _ => rfl, Nat.le_refl _, hw.pos, rfl,
        hw.unused⟩
    · simp only [h0, if_false]
      refine ⟨_, _, rfl, ?_⟩
      have := hw.pos
      refine ⟨by simp; omega, Or.inr rfl, fun _ => by simp, fun b hb => ?_,
        by simp, by simp, rfl, ?_⟩
      · have : b ≠ m.next := fun h => by have := hb h; omega
        simp [this]
      intro b hb
      simp only at hb
      simp only [show b ≠ m.next by omega, if_false]
      exact hw.unused b (by omega)
  refine wp_mono halloc ?_
  rintro c m1 ⟨hc0, hcn, hcblk, hother, hnext, hclt, hlost, hun⟩
  have hlt := hr.fresh
  rw [wp_bind, wp_when]
  refine ⟨fun hv0 => ?_, fun hv0 => ?_⟩
  · obtain ⟨hcap0, hle, f, hblk, hf⟩ := hr.buf hv0
    have hcv : c ≠ v.c := by rcases hcn with h | h <;> omega
    rw [wp_bind, wp_dassert]
    refine ⟨hcap0, ?_⟩
    rw [wp_bind]
    refine wp_mono (copyLoop hv0 hle hr.size (by rw [hother _ (fun h => absurd h.symm hcv)]; exact hblk) hf hcv
      (fun h => hc0.1 h) hcblk) ?_
    intro _ m2 inv
    have hd := dealloc_ok (n := v.cap) inv.src rfl (by intro i; grind)
    rw [wp_of_returns hd, wp_pure]
    have hsz := hr.size
    refine ⟨⟨?_, ?_, ?_, ?_⟩, rfl, ⟨?_, ?_, ?_, ?_, ?_⟩, ⟨?_, ?_, ?_⟩, ?_⟩
    · intro h
      simp only at h
      have hn0 := hc0.1 h
      subst hn0
      simp only [Vec.empty, List.take_zero, and_true]
      rw [h]
      congr 1
      split <;> omega
    · intro h
      simp only at h
      have hne : n ≠ 0 := fun h' => h (hc0.2 h')
      refine ⟨hne, by simp; omega, (fun j => if j < l.length ∧ j < n then l[j]? else none), ?_, ?_⟩
      · simp only [if_neg hcv]; exact inv.dst h
      · intro i
        grind
    · simp only [List.length_take]; split <;> omega
    · simp only [inv.next]; exact hclt
    · intro b h1 h2
      simp only at h2 ⊢
      rw [if_neg h1, inv.other b (fun h => absurd h h2) h1, hother b (fun h => absurd h h2)]
    · intro _ _; simp
    · simp only
      rcases hcn with h | h
      · exact Or.inr (Or.inl h)
      · exact Or.inr (Or.inr (by omega))
    · simp only [inv.next]; exact hnext
    · simp only [inv.lost]; exact hlost
    · simp only [inv.next]; omega
    · intro b hb
      simp only [inv.next] at hb ⊢
      split
      · rfl
      · rename_i h1
        rw [inv.other b (by omega) h1]; exact hun b hb
    · simp only
      rw [if_neg (Ne.symm hv0)]
      rw [inv.other 0 (fun h => h.symm) (Ne.symm hv0), hother 0 (fun h => h.symm)]
      exact hw.null
    · simp only; exact Or.inl hcv
  · -- nothing to move
    have hv0 : v.c = 0 := by simpa using hv0
    obtain ⟨rfl, rfl⟩ := hr.null hv0
    rw [wp_pure]
    refine ⟨⟨?_, ?_, by simp [Vec.empty], hclt⟩, rfl, ⟨?_, ?_, ?_, hnext, hlost⟩, ⟨by omega, hun, ?_⟩, ?_⟩
    · intro h; simp only at h; simp [Vec.empty, h, hc0.1 h]
    · intro h
      simp only at h ⊢
      exact ⟨fun h' => h (hc0.2 h'), by simp, _, hcblk h, by simp⟩
    · intro b h1 h2; exact hother b (fun h => absurd h h2)
    · intro h1 h2; exact absurd rfl h2
    · simp only; rcases hcn with h | h
      · exact Or.inl h
      · exact Or.inr (Or.inr (by omega))
    · rw [hother 0 (fun h => h.symm)]; exact hw.null
    · simp only; by_cases h : c = 0
      · exact Or.inr h
      · exact Or.inl h


/-- The destroying loop of `clear`. -/
theorem destroyLoop {triv : Bool} {m : Mem α} {v : Vec} {l : List α} {f : Nat → Option α}
    (hv0 : v.c ≠ 0) (hcap : l.length ≤ v.cap) (hsz : v.sz = l.length)
    (hv : m.blk v.c = some ⟨v.cap, f⟩) (hf : ∀ i, f i = l[i]?) :
    wp (forRange v.sz 0 () fun i _ => destroy triv v.c i)
      (fun _ m' => CopyInv m 0 0 v l l.length m') m := by
  have h := wp_forRange (σ := Mem α) (I := fun i _ m' => CopyInv m 0 0 v l i m')
    (f := fun i _ => destroy triv v.c i) v.sz 0 () m ?_ ?_
  · refine wp_mono h ?_
    intro _ m' h; rw [hsz] at h; simpa using h
  · refine ⟨?_, fun h => absurd rfl h, fun _ _ _ => rfl, rfl, rfl⟩
    rw [hv]; simp [funext_iff, hf]
  · intro i _ t _ hi inv
    have hil : i < l.length := by omega
    have hsrc := inv.src
    have hlive : triv = true ∨ ((fun j => if j < i then none else l[j]?) i).isSome := by
      right; simp [hil]
    have hdes := destroy_ok (triv := triv) (m := t)
      (b := v.c) (i := i) (k := ⟨v.cap, fun j => if j < i then none else l[j]?⟩) hv0
      hsrc (show i < v.cap by omega) hlive
    rw [wp_of_returns hdes]
    refine ⟨?_, fun h => absurd rfl h, ?_, by simp [inv.next], by simp [inv.lost]⟩
    · simp only [put_blk, if_true]
      congr 2
      funext y
      grind
    · intro b h1 h2
      simp only [put_blk, if_neg h2]
      exact inv.other b h1 h2

theorem clear_ok {triv : Bool} {m : Mem α} {v : Vec} {l : List α} (hw : m.WF) (hr : Rep m v l) :
    wp (clear triv v) (fun v' m' => v' = Vec.empty ∧ Frame m m' v Vec.empty ∧ m'.WF ∧
      m'.next = m.next) m := by
  unfold clear
  rw [wp_bind, wp_when]
  refine ⟨fun hv0 => ?_, fun hv0 => ?_⟩
  · obtain ⟨hcap0, hle, f, hblk, hf⟩ := hr.buf hv0
    rw [wp_bind]
    refine wp_mono (destroyLoop hv0 hle hr.size hblk hf) ?_
    intro _ m2 inv
    have hd := dealloc_ok (n := v.cap) inv.src rfl (by intro i; grind)
    rw [wp_of_returns hd, wp_pure]
    refine ⟨rfl, ⟨?_, ?_, Or.inr (Or.inl rfl), by simp [inv.next], by simp [inv.lost]⟩, ⟨?_, ?_, ?_⟩,
      inv.next⟩
    · intro b h1 h2
      simp only [if_neg h1]
      exact inv.other b (fun _ => rfl) h1
    · intro _ _; simp
    · simp [inv.next, hw.pos]
    · intro b hb
      simp only [inv.next] at hb ⊢
      split
      · rfl
      · rename_i h1
        rw [inv.other b (fun _ => rfl) h1]; exact hw.unused b hb
    · simp only
      rw [if_neg (Ne.symm hv0), inv.other 0 (fun _ => rfl) (Ne.symm hv0)]; exact hw.null
  · have hv0 : v.c = 0 := by simpa using hv0
    obtain ⟨rfl, rfl⟩ := hr.null hv0
    rw [wp_pure]
    exact ⟨rfl, ⟨fun _ _ _ => rfl, fun h => absurd rfl h, Or.inl rfl, Nat.le_refl _, rfl⟩, hw, rfl⟩

/-- Constructing one more element at the end of a vector with spare capacity. -/
theorem construct_end {m : Mem α} {v : Vec} {l : List α} {x : α} {e : Arg α} (hw : m.WF)
    (hr : Rep m v l) (hx : Returns e.get m x m) (hlt : v.sz < v.cap) :
    wp (construct v.c v.sz e) (fun _ m' => Rep m' { v with sz := v.sz + 1 } (l ++ [x]) ∧
      (∀ b, b ≠ v.c → m'.blk b = m.blk b) ∧ m'.next = m.next ∧ m'.lost = m.lost ∧ m'.WF) m := by
  have hv0 : v.c ≠ 0 := by
    intro h
    obtain ⟨rfl, _⟩ := hr.null h
    simp [Vec.empty] at hlt
  obtain ⟨hcap0, hle, f, hblk, hf⟩ := hr.buf hv0
  have hsz := hr.size
  have hc := construct_ok hv0 hx hblk (show v.sz < v.cap from hlt) (by simp [hf, hsz])
  rw [wp_of_returns hc]
  refine ⟨⟨fun h => absurd h hv0, fun _ => ⟨hcap0, ?_, ?_⟩, ?_, ?_⟩, ?_, rfl, rfl, ⟨hw.pos, ?_, ?_⟩⟩
  · simp; omega
  · refine ⟨(fun y => if y = v.sz then some x else f y), ?_, ?_⟩
    · simp
    · intro i
      simp only [hf, hsz]
      grind
  · simp [hsz]
  · simp only [made_next, put_next]; exact hr.fresh
  · intro b hb; simp [hb]
  · intro b hb
    simp only [made_next, put_next] at hb
    have := hr.fresh
    simp only [made_blk, put_blk, show b ≠ v.c by omega, if_false]; exact hw.unused b hb
  · simp only [made_blk, put_blk, Ne.symm hv0, if_false]; exact hw.null

/-- Capacity after `push_back` on a vector of the given size and capacity. -/
def growCap (len cap : Nat) : Nat := if len < cap then cap else if len = 0 then 2 else 2 * len

/-- A read through a reference depends on its block only. -/
theorem get_congr {m m1 : Mem α} {x : α} {e : Arg α} (hx : Returns e.get m x m)
    (hs : e = .val x ∨ ∃ b i, e = .ref b i ∧ (b ≠ 0 → m1.blk b = m.blk b)) :
    Returns e.get m1 x m1 := by
  rcases hs with rfl | ⟨b, i, rfl, hb⟩
  · exact val_get x m1
  · simp only [Returns, Arg.get, read, access, Prog.bind_apply] at hx ⊢
    by_cases hb0 : b = 0
    · simp [hb0] at hx
    · rw [hb hb0]
      simp only [hb0, if_false] at hx ⊢
      rcases hk : m.blk b with _ | k
      · simp [hk] at hx
      · simp only [hk] at hx ⊢
        by_cases hr : 0 ≤ i ∧ i < (k.len : Int)
        · simp only [hr, and_self, if_true] at hx ⊢
          rcases hsl : k.slot i.toNat with _ | y
          · simp [hsl, fail] at hx
          · simp only [hsl, Prog.pure_apply, Option.some.injEq, Except.ok.injEq, Prod.mk.injEq] at hx ⊢
            exact ⟨hx.1, trivial⟩
        · simp [hr] at hx

theorem get_frame {m m1 : Mem α} {v v1 : Vec} {x : α} {e : Arg α} (hx : Returns e.get m x m)
    (hs : e = .val x ∨ ∃ b i, e = .ref b i ∧ b ≠ v.c ∧ b < m.next) (hf : Frame m m1 v v1) :
    Returns e.get m1 x m1 := by
  refine get_congr hx ?_
  rcases hs with h | ⟨b, i, h, h1, h2⟩
  · exact Or.inl h
  · refine Or.inr ⟨b, i, h, fun h0 => hf.other b h1 ?_⟩
    rcases hf.new with h | h | h <;> omega

theorem pushBack_full {triv : Bool} {m : Mem α} {v : Vec} {l : List α} {x : α} {e : Arg α} (hw : m.WF)
    (hr : Rep m v l) (hx : Returns e.get m x m)
    (hx' : l.length = v.cap → e = .val x ∨ ∃ b i, e = .ref b i ∧ b ≠ v.c ∧ b < m.next) :
    wp (pushBack triv v e) (fun v' m' => Rep m' v' (l ++ [x]) ∧ v'.cap = growCap l.length v.cap ∧
      Frame m m' v v' ∧ m'.WF ∧ (l.length < v.cap → v'.c = v.c) ∧
      (l.length = v.cap → v'.c ≠ v.c ∨ v'.c = 0)) m := by
  unfold pushBack pushBackWith
  have hsz := hr.size
  rw [wp_bind]
  -- after making room
  have hroom : wp (if v.sz + 1 > v.cap then
      (if v.sz ≠ 0 then resize triv v (2 * v.sz) else resize triv v 2) else pure v)
      (fun v1 m1 => Rep m1 v1 l ∧ v1.cap = growCap l.length v.cap ∧ Frame m m1 v v1 ∧ m1.WF ∧
        v1.sz < v1.cap ∧ Returns e.get m1 x m1 ∧ (l.length < v.cap → v1.c = v.c) ∧
        (l.length = v.cap → v1.c ≠ v.c ∨ v1.c = 0)) m := by
    have hle : l.length ≤ v.cap := by
      by_cases h : v.c = 0
      · rw [(hr.null h).2]; simp
      · exact (hr.buf h).2.1
    by_cases hfull : v.sz + 1 > v.cap
    · rw [if_pos hfull]
      have hfull' : l.length = v.cap := by omega
      have key : ∀ n, l.length < n → n = growCap l.length v.cap →
        wp (resize triv v n) (fun v1 m1 => Rep m1 v1 l ∧ v1.cap = growCap l.length v.cap ∧
          Frame m m1 v v1 ∧ m1.WF ∧ v1.sz < v1.cap ∧ Returns e.get m1 x m1 ∧ (l.length < v.cap → v1.c = v.c) ∧
          (l.length = v.cap → v1.c ≠ v.c ∨ v1.c = 0)) m := by
        intro n hn hg
        refine wp_mono (resize_ok hw hr n) ?_
        rintro v1 m1 ⟨h1, h2, h3, h4, h5⟩
        have htake : l.take n = l := List.take_of_length_le (by omega)
        rw [htake] at h1
        refine ⟨h1, by omega, h3, h4, by rw [h1.size]; omega, ?_, fun h => absurd h (by omega),
          fun _ => h5⟩
        exact get_frame hx (hx' hfull') h3
      by_cases h0 : v.sz ≠ 0
      · rw [if_pos h0]
        exact key _ (by omega) (by unfold growCap; rw [if_neg (by omega), if_neg (by omega)]; omega)
      · rw [if_neg h0]
        exact key _ (by omega) (by unfold growCap; rw [if_neg (by omega), if_pos (by omega)])
    · rw [if_neg hfull, wp_pure]
      refine ⟨hr, ?_, ⟨fun _ _ _ => rfl, fun h => absurd rfl h, Or.inl rfl, Nat.le_refl _, rfl⟩, hw,
        by omega, hx, fun _ => rfl, fun h => absurd h (by omega)⟩
      unfold growCap; rw [if_pos (by omega)]
  refine wp_mono hroom ?_
  rintro v1 m1 ⟨h1, h2, h3, h4, h5, h6, h7, h8⟩
  rw [wp_bind]
  refine wp_mono (construct_end h4 h1 h6 h5) ?_
  rintro _ m2 ⟨g1, g2, g3, g4, g5⟩
  rw [wp_pure]
  refine ⟨g1, h2, ⟨?_, ?_, h3.new, by rw [g3]; exact h3.next, by rw [g4]; exact h3.lost⟩, g5, h7, h8⟩
  · intro b hb1 hb2
    rw [g2 b hb2]; exact h3.other b hb1 hb2
  · intro hb1 hb2
    rw [g2 v.c (Ne.symm hb1)]; exact h3.gone hb1 hb2

theorem pushBack_ok {triv : Bool} {m : Mem α} {v : Vec} {l : List α} {x : α} {e : Arg α} (hw : m.WF)
    (hr : Rep m v l) (hx : Returns e.get m x m)
    (hx' : l.length = v.cap → e = .val x ∨ ∃ b i, e = .ref b i ∧ b ≠ v.c ∧ b < m.next) :
    wp (pushBack triv v e) (fun v' m' => Rep m' v' (l ++ [x]) ∧ v'.cap = growCap l.length v.cap ∧
      Frame m m' v v' ∧ m'.WF) m :=
  wp_mono (pushBack_full hw hr hx hx') fun _ _ h => ⟨h.1, h.2.1, h.2.2.1, h.2.2.2.1⟩

/-- Capacity after `pop_back` on a vector of the given size and capacity. -/
def shrinkCap (len cap : Nat) : Nat := if len - 1 < cap / 3 then cap / 2 else cap

theorem popBack_full {triv : Bool} {m : Mem α} {v : Vec} {l : List α} (hw : m.WF)
    (hr : Rep m v l) (hne : l ≠ []) :
    wp (popBack triv v) (fun v' m' => Rep m' v' l.dropLast ∧ v'.cap = shrinkCap l.length v.cap ∧
      Frame m m' v v' ∧ m'.WF ∧ (¬ l.length - 1 < v.cap / 3 → v'.c = v.c) ∧
      (l.length - 1 < v.cap / 3 → v'.c ≠ v.c ∨ v'.c = 0)) m := by
  have hlen : 0 < l.length := List.length_pos_iff.2 hne
  have hv0 : v.c ≠ 0 := fun h => hne (hr.null h).2
  obtain ⟨hcap0, hle, f, hblk, hf⟩ := hr.buf hv0
  have hsz := hr.size
  unfold popBack popBackWith
  rw [wp_bind, wp_dassert]
  refine ⟨by omega, ?_⟩
  simp only
  rw [wp_bind]
  have hd := destroy_ok (triv := triv) (i := v.sz - 1) hv0 hblk (show v.sz - 1 < v.cap by omega)
    (Or.inr (by simp only [hf, hsz]; rw [List.getElem?_eq_getElem (by omega)]; rfl))
  rw [wp_of_returns hd]
  have hr1 : Rep (m.put v.c ⟨v.cap, f⟩ (v.sz - 1) none) { v with sz := v.sz - 1 } l.dropLast := by
    refine ⟨fun h => absurd h hv0, fun _ => ⟨hcap0, ?_, ?_⟩, ?_, hr.fresh⟩
    · simp; omega
    · refine ⟨(fun y => if y = v.sz - 1 then none else f y), by simp, ?_⟩
      intro i
      simp only [hf, hsz, List.getElem?_dropLast]
      grind
    · simp [hsz]
  have hw1 : (m.put v.c ⟨v.cap, f⟩ (v.sz - 1) none).WF := by
    refine ⟨hw.pos, ?_, ?_⟩
    · intro b hb
      simp only [put_next] at hb
      have := hr.fresh
      simp only [put_blk, show b ≠ v.c by omega, if_false]; exact hw.unused b hb
    · simp only [put_blk, Ne.symm hv0, if_false]; exact hw.null
  by_cases hs : v.sz - 1 < v.cap / 3
  · rw [if_pos hs]
    refine wp_mono (resize_ok hw1 hr1 _) ?_
    rintro v2 m2 ⟨h1, h2, h3, h4, h5⟩
    have htake : l.dropLast.take (v.cap / 2) = l.dropLast :=
      List.take_of_length_le (by simp; omega)
    rw [htake] at h1
    refine ⟨h1, ?_, ⟨?_, ?_, h3.new, h3.next, h3.lost⟩, h4, fun h => absurd h (by omega), fun _ => h5⟩
    · unfold shrinkCap; rw [h2, if_pos (by omega)]
    · intro b hb1 hb2
      rw [h3.other b hb1 hb2]; simp [hb1]
    · intro hb1 hb2; exact h3.gone hb1 hb2
  · rw [if_neg hs, wp_pure]
    refine ⟨hr1, ?_, ⟨?_, fun h => absurd rfl h, Or.inl rfl, Nat.le_refl _, rfl⟩, hw1, fun _ => rfl, fun h => absurd h (by omega)⟩
    · unfold shrinkCap; rw [if_neg (by omega)]
    · intro b hb1 _; simp [hb1]

theorem popBack_ok {triv : Bool} {m : Mem α} {v : Vec} {l : List α} (hw : m.WF)
    (hr : Rep m v l) (hne : l ≠ []) :
    wp (popBack triv v) (fun v' m' => Rep m' v' l.dropLast ∧ v'.cap = shrinkCap l.length v.cap ∧
      Frame m m' v v' ∧ m'.WF) m :=
  wp_mono (popBack_full hw hr hne) fun _ _ h => ⟨h.1, h.2.1, h.2.2.1, h.2.2.2.1⟩

/-- The filling loop of `resize(n, e)` and of the fill constructor. -/
theorem fillLoop {m : Mem α} {c n : Nat} {x : α} {e : Arg α} {p : List α} (hw : m.WF) (hc : c ≠ 0)
    (hcn : c < m.next)
    (hx : ∀ t : Mem α, (∀ b, b ≠ c → t.blk b = m.blk b) → Returns e.get t x t)
    (hblk : ∃ f, m.blk c = some ⟨n, f⟩ ∧ ∀ i, f i = p[i]?) (hp : p.length ≤ n) :
    wp (forRange (n - p.length) p.length () fun i _ => construct c i e)
      (fun _ m' => (∃ f, m'.blk c = some ⟨n, f⟩ ∧
          ∀ i, f i = (p ++ List.replicate (n - p.length) x)[i]?) ∧
        (∀ b, b ≠ c → m'.blk b = m.blk b) ∧ m'.next = m.next ∧ m'.lost = m.lost ∧ m'.WF) m := by
  have h := wp_forRange (σ := Mem α)
    (I := fun k _ m' => (∃ f, m'.blk c = some ⟨n, f⟩ ∧
          ∀ i, f i = (p ++ List.replicate (k - p.length) x)[i]?) ∧
        (∀ b, b ≠ c → m'.blk b = m.blk b) ∧ m'.next = m.next ∧ m'.lost = m.lost)
    (f := fun i _ => construct c i e) (n - p.length) p.length () m ?_ ?_
  · refine wp_mono h ?_
    rintro _ m' ⟨h1, h2, h3, h4⟩
    refine ⟨?_, h2, h3, h4, ⟨by rw [h3]; exact hw.pos, ?_, ?_⟩⟩
    · rwa [show p.length + (n - p.length) = n by omega] at h1
    · intro b hb
      rw [h3] at hb
      rw [h2 b (by omega)]; exact hw.unused b hb
    · rw [h2 0 (Ne.symm hc)]; exact hw.null
  · refine ⟨?_, fun _ _ => rfl, rfl, rfl⟩
    simpa using hblk
  · rintro k _ t hk1 hk2 ⟨⟨f, h1, h1'⟩, h2, h3, h4⟩
    have hcon := construct_ok hc (hx t h2) h1 (show k < n by omega)
      (by simp only [h1']; rw [List.getElem?_eq_none]; simp; omega)
    rw [wp_of_returns hcon]
    refine ⟨⟨fun y => if y = k then some x else f y, by simp, ?_⟩, ?_, h3, h4⟩
    · intro i
      simp only [h1']
      grind
    · intro b hb
      simp only [made_blk, put_blk, if_neg hb]; exact h2 b hb

theorem resizeFill_eq (triv : Bool) (v : Vec) (n : Nat) (e : Arg α) (hn : n ≠ 0)
    (hcap : v.c ≠ 0 → v.cap ≠ 0) :
    resizeFill triv v n e = (do
      let v' ← resize triv v n
      forRange (n - v.sz) v.sz () fun i _ => construct v'.c i e
      pure { sz := n, cap := n, c := v'.c }) := by
  unfold resizeFill resizeFillWith resize resizeWith
  simp only [hn, if_false, bind_assoc, pure_bind]
  congr 1
  funext c
  by_cases h0 : v.c ≠ 0
  · simp only [when, if_pos h0, dassert_pos (hcap h0), bind_assoc, pure_bind]
  · simp only [when, if_neg h0]

theorem resizeFill_full {triv : Bool} {m : Mem α} {v : Vec} {l : List α} (hw : m.WF) (hr : Rep m v l)
    (n : Nat) {x : α} {e : Arg α} (hx : Returns e.get m x m)
    (hs : e = .val x ∨ ∃ b i, e = .ref b i ∧ b ≠ v.c ∧ b < m.next) :
    wp (resizeFill triv v n e) (fun v' m' =>
      Rep m' v' (l.take n ++ List.replicate (n - l.length) x) ∧ v'.cap = n ∧ Frame m m' v v' ∧
      m'.WF ∧ (v'.c ≠ v.c ∨ v'.c = 0)) m := by
  by_cases hn : n = 0
  · subst hn
    unfold resizeFill resizeFillWith
    simp only [if_true]
    refine wp_mono (resize_ok hw hr 0) ?_
    rintro v' m' ⟨h1, h2, h3, h4, h5⟩
    exact ⟨by simpa using h1, h2, h3, h4, h5⟩
  · rw [resizeFill_eq triv v n _ hn (fun h => (hr.buf h).1), wp_bind]
    refine wp_mono (resize_ok hw hr n) ?_
    rintro v' m1 ⟨h1, h2, h3, h4, h5⟩
    have hc0 : v'.c ≠ 0 := by
      intro h
      have := (h1.null h).1
      rw [this] at h2; exact hn h2.symm
    obtain ⟨g1, g2, g3⟩ := h1.buf hc0
    rw [h2] at g3
    have hsz := hr.size
    have hloop : wp (forRange (n - v.sz) v.sz () fun i _ => construct v'.c i e)
      (fun _ m' => (∃ f, m'.blk v'.c = some ⟨n, f⟩ ∧
          ∀ i, f i = (l.take n ++ List.replicate (n - l.length) x)[i]?) ∧
        (∀ b, b ≠ v'.c → m'.blk b = m1.blk b) ∧ m'.next = m1.next ∧ m'.lost = m1.lost ∧ m'.WF) m1 := by
      by_cases hle : l.length ≤ n
      · have ht : l.take n = l := List.take_of_length_le hle
        rw [ht] at g3 ⊢
        rw [hsz]
        refine fillLoop h4 hc0 h1.fresh (fun t ht => ?_) g3 hle
        refine get_congr (get_frame hx hs h3) ?_
        rcases hs with h | ⟨b, i, h, e1, e2⟩
        · exact Or.inl h
        · refine Or.inr ⟨b, i, h, fun h0 => ht b ?_⟩
          rcases h3.new with h | h | h <;> omega
      · rw [hsz, show n - l.length = 0 by omega]
        simp only [forRange]
        rw [wp_pure]
        exact ⟨by simpa using g3, fun _ _ => rfl, rfl, rfl, h4⟩
    rw [wp_bind]
    refine wp_mono hloop ?_
    rintro _ m2 ⟨k1, k2, k3, k4, k5⟩
    rw [wp_pure]
    refine ⟨⟨fun h => absurd h hc0, fun _ => ⟨hn, by simp; omega, k1⟩, by simp; omega, ?_⟩, rfl,
      ⟨?_, ?_, h3.new, ?_, ?_⟩, k5, h5⟩
    · simp only [k3]; exact h1.fresh
    · intro b hb1 hb2
      simp only at hb2
      rw [k2 b hb2]; exact h3.other b hb1 hb2
    · intro hb1 hb2
      simp only at hb1
      rw [k2 _ (Ne.symm hb1)]; exact h3.gone hb1 hb2
    · rw [k3]; exact h3.next
    · rw [k4]; exact h3.lost

theorem resizeFill_arg_ok {triv : Bool} {m : Mem α} {v : Vec} {l : List α} (hw : m.WF) (hr : Rep m v l)
    (n : Nat) {x : α} {e : Arg α} (hx : Returns e.get m x m)
    (hs : e = .val x ∨ ∃ b i, e = .ref b i ∧ b ≠ v.c ∧ b < m.next) :
    wp (resizeFill triv v n e) (fun v' m' =>
      Rep m' v' (l.take n ++ List.replicate (n - l.length) x) ∧ v'.cap = n ∧ Frame m m' v v' ∧
      m'.WF) m :=
  wp_mono (resizeFill_full hw hr n hx hs) fun _ _ h => ⟨h.1, h.2.1, h.2.2.1, h.2.2.2.1⟩

theorem resizeFill_ok {triv : Bool} {m : Mem α} {v : Vec} {l : List α} (hw : m.WF) (hr : Rep m v l)
    (n : Nat) (x : α) :
    wp (resizeFill triv v n (.val x)) (fun v' m' =>
      Rep m' v' (l.take n ++ List.replicate (n - l.length) x) ∧ v'.cap = n ∧ Frame m m' v v' ∧
      m'.WF) m :=
  resizeFill_arg_ok hw hr n (val_get x m) (Or.inl rfl)

theorem ctorFill_ok {triv : Bool} {m : Mem α} (hw : m.WF) (n : Nat) (hn : n ≠ 0) (x : α) :
    wp (ctorFill triv n (.val x)) (fun v' m' =>
      Rep m' v' (List.replicate n x) ∧ v'.cap = n ∧ Frame m m' Vec.empty v' ∧ m'.WF) m := by
  have h := resizeFill_ok (triv := triv) hw (Rep.empty hw) n x
  rw [resizeFill_eq triv _ n _ hn (fun h => absurd rfl h)] at h
  unfold ctorFill ctorFillWith
  rw [wp_bind, wp_dassert]
  refine ⟨hn, ?_⟩
  simpa [Vec.empty, resize] using h

/-! ### Reading -/

theorem Rep.read_ok {m : Mem α} {v : Vec} {l : List α} (hr : Rep m v l) (i : Nat) (hi : i < l.length) :
    Returns (read v.c (i : Int)) m l[i] m := by
  have hv0 : v.c ≠ 0 := fun h => by simp [(hr.null h).2] at hi
  obtain ⟨_, hle, f, hblk, hf⟩ := hr.buf hv0
  exact Vec.read_ok hv0 hblk (show i < v.cap by omega) (by simp [hf, hi])

theorem bmod32 (z : Int) (h1 : -2147483648 ≤ z) (h2 : z < 2147483648) : Int.bmod z (2 ^ 32) = z := by
  rw [Int.bmod_eq_of_le] <;> simp <;> omega

theorem normIndex_ok (v : Vec) (i : Int) (hsz : v.sz < 2 ^ 31) (h : -(2 ^ 31) ≤ i) :
    normIndex v i = if i < 0 then v.sz + i else i := by
  unfold normIndex
  split
  · exact bmod32 _ (by omega) (by omega)
  · rfl

theorem index_ok {m : Mem α} {v : Vec} {l : List α} (hr : Rep m v l) (hlen : l.length < 2 ^ 31)
    (i : Nat) (hi : i < l.length) :
    Returns (index v (i : Int)) m l[i] m ∧ Returns (index v ((i : Int) - l.length)) m l[i] m := by
  have hsz := hr.size
  have key : ∀ z : Int, normIndex v z = i → Returns (index v z) m l[i] m := by
    intro z hz
    unfold index Returns
    have h1 : Returns (dassert (σ := Mem α) (normIndex v z < Int.bmod v.sz (2 ^ 32))) m () m := by
      rw [hz, bmod32 _ (by omega) (by omega)]
      simp only [Returns, dassert, check]
      rw [if_pos (by omega)]
    simp only
    rw [bind_returns h1, hz]
    exact hr.read_ok i hi
  constructor
  · apply key; rw [normIndex_ok v _ (by omega) (by omega), if_neg (by omega)]
  · apply key; rw [normIndex_ok v _ (by omega) (by omega), if_pos (by omega)]; omega

theorem setIndex_arg_ok {m : Mem α} {v : Vec} {l : List α} {x : α} {e : Arg α} (hw : m.WF)
    (hr : Rep m v l) (hx : Returns e.get m x m)
    (hlen : l.length < 2 ^ 31) (z : Int) (i : Nat) (hi : i < l.length)
    (hz : z = i ∨ z = (i : Int) - l.length) :
    wp (setIndex v z e) (fun _ m' => Rep m' v (l.set i x) ∧ Frame m m' v v ∧ m'.WF) m := by
  have hsz := hr.size
  have hn : normIndex v z = i := by
    rw [normIndex_ok v _ (by omega) (by omega)]
    split <;> omega
  have hv0 : v.c ≠ 0 := fun h => by simp [(hr.null h).2] at hi
  obtain ⟨h0, hle, f, hblk, hf⟩ := hr.buf hv0
  unfold setIndex
  simp only
  rw [hn, bmod32 _ (by omega) (by omega), wp_bind, wp_dassert]
  refine ⟨by omega, ?_⟩
  have ha := assign_ok (i := i) (y := l[i]) hv0 hx hblk (show i < v.cap by omega)
    (by simp [hf, hi])
  rw [wp_of_returns ha]
  refine ⟨⟨fun h => absurd h hv0, fun _ => ⟨h0, by simpa using hle, ?_⟩, by simpa using hsz, hr.fresh⟩,
    ⟨?_, fun h => absurd rfl h, Or.inl rfl, Nat.le_refl _, rfl⟩, ⟨hw.pos, ?_, ?_⟩⟩
  · refine ⟨(fun y => if y = i then some x else f y), by simp, ?_⟩
    intro j
    simp only [hf]
    grind
  · intro b hb _; simp [hb]
  · intro b hb
    simp only [wrote_next, put_next] at hb
    have := hr.fresh
    simp only [wrote_blk, put_blk, show b ≠ v.c by omega, if_false]; exact hw.unused b hb
  · simp only [wrote_blk, put_blk, Ne.symm hv0, if_false]; exact hw.null

theorem setIndex_ok {m : Mem α} {v : Vec} {l : List α} {x : α} (hw : m.WF) (hr : Rep m v l)
    (hlen : l.length < 2 ^ 31) (z : Int) (i : Nat) (hi : i < l.length)
    (hz : z = i ∨ z = (i : Int) - l.length) :
    wp (setIndex v z (.val x)) (fun _ m' => Rep m' v (l.set i x) ∧ Frame m m' v v ∧ m'.WF) m :=
  setIndex_arg_ok hw hr (val_get x m) hlen z i hi hz

/-- `push_back` of an own element of a full vector reads released storage. -/
theorem pushBack_self_faults {triv : Bool} {m : Mem α} {v : Vec} {l : List α} (hw : m.WF)
    (hr : Rep m v l) (hne : l ≠ []) (hfull : l.length = v.cap) (i : Int) :
    Faults (pushBack triv v (.ref v.c i)) m .useAfterFree := by
  have hsz := hr.size
  have hpos : 0 < l.length := List.length_pos_iff.2 hne
  have hv0 : v.c ≠ 0 := fun h => hne (hr.null h).2
  unfold pushBack pushBackWith
  rw [if_pos (by omega), if_pos (by omega)]
  refine faults_bind_of_wp (wp_mono (resize_ok hw hr _) ?_)
  rintro v1 m1 ⟨r1, r2, r3, r4, r5⟩
  have hv1 : v1.c ≠ 0 := by
    intro h
    have := (r1.null h).1
    rw [this] at r2
    simp only [Vec.empty] at r2
    omega
  apply bind_faults
  unfold construct
  refine faults_bind_of_wp ((wp_check _ _ _ _).2 ⟨Or.inl hv1, ?_⟩)
  apply bind_faults
  have hgone : m1.blk v.c = none := r3.gone (by rcases r5 with h | h; exact h; exact absurd h hv1) hv0
  unfold Arg.get read
  apply bind_faults
  simp [Faults, access, hv0, hgone]

theorem back_ok {m : Mem α} {v : Vec} {l : List α} (hr : Rep m v l) (hne : l ≠ []) :
    Returns (back v) m (l.getLast hne) m := by
  have hlen : 0 < l.length := List.length_pos_iff.2 hne
  have hsz := hr.size
  unfold back Returns
  have h1 : Returns (dassert (σ := Mem α) (v.sz > 0)) m () m := by
    simp only [Returns, dassert, check]; rw [if_pos (by omega)]
  rw [bind_returns h1]
  have := hr.read_ok (l.length - 1) (by omega)
  rw [List.getLast_eq_getElem, hsz, show ((l.length : Nat) : Int) - 1 = ((l.length - 1 : Nat) : Int) by omega]
  exact this

theorem front_ok {m : Mem α} {v : Vec} {l : List α} (hr : Rep m v l) (hne : l ≠ []) :
    Returns (front v) m (l.head hne) m := by
  have hlen : 0 < l.length := List.length_pos_iff.2 hne
  have := hr.read_ok 0 hlen
  rw [List.head_eq_getElem]
  exact this

theorem iterate_ok {m : Mem α} {v : Vec} {l : List α} (hr : Rep m v l) :
    Returns (iterate v) m l m := by
  have h := wp_forRange (σ := Mem α) (I := fun k acc m' => m' = m ∧ acc = l.take k)
    (f := fun i acc => do
      let x ← read v.c i
      pure (acc ++ [x])) v.sz 0 [] m (by simp) ?_
  · obtain ⟨a, s', h1, h2, h3⟩ := h
    rw [hr.size] at h3
    simp at h3
    subst h2 h3
    exact h1
  · rintro i acc t _ hi ⟨rfl, rfl⟩
    have hsz := hr.size
    rw [wp_bind, wp_of_returns (hr.read_ok i (by omega)), wp_pure]
    refine ⟨rfl, ?_⟩
    simp

/-! ### Copy and move -/

theorem copyCtorLoop {triv : Bool} {m : Mem α} {c : Nat} {u : Vec} {l : List α} (hw : m.WF)
    (hc : c ≠ 0) (hcn : c < m.next) (hcu : c ≠ u.c) (hu : Rep m u l) (ht : triv = true ∨ l = [])
    (hblk : m.blk c = some ⟨u.cap, fun _ => none⟩) :
    wp (forRange u.sz 0 () fun i _ => do
        destroy triv c i
        construct c i (.ref u.c i))
      (fun _ m' => (∃ f, m'.blk c = some ⟨u.cap, f⟩ ∧ ∀ i, f i = l[i]?) ∧
        (∀ b, b ≠ c → m'.blk b = m.blk b) ∧ m'.next = m.next ∧ m'.lost = m.lost ∧ m'.WF) m := by
  have hsz := hu.size
  have h := wp_forRange (σ := Mem α)
    (I := fun k _ m' => (∃ f, m'.blk c = some ⟨u.cap, f⟩ ∧ ∀ i, f i = (l.take k)[i]?) ∧
        (∀ b, b ≠ c → m'.blk b = m.blk b) ∧ m'.next = m.next ∧ m'.lost = m.lost)
    (f := fun i _ => do
        destroy triv c i
        construct c i (.ref u.c i)) u.sz 0 () m ?_ ?_
  · refine wp_mono h ?_
    rintro _ m' ⟨h1, h2, h3, h4⟩
    refine ⟨?_, h2, h3, h4, ⟨by rw [h3]; exact hw.pos, ?_, ?_⟩⟩
    · simpa [hsz] using h1
    · intro b hb
      rw [h3] at hb
      rw [h2 b (by omega)]; exact hw.unused b hb
    · rw [h2 0 (Ne.symm hc)]; exact hw.null
  · exact ⟨⟨_, hblk, by simp⟩, fun _ _ => rfl, rfl, rfl⟩
  · rintro k _ t _ hk ⟨⟨f, h1, h1'⟩, h2, h3, h4⟩
    have hkl : k < l.length := by omega
    have htriv : triv = true := by
      rcases ht with h | h
      · exact h
      · rw [h] at hkl; simp at hkl
    have hut : Rep t u l := hu.mono (h2 _ (Ne.symm hcu)) (by omega)
    have hu0 : u.c ≠ 0 := fun h => by rw [(hu.null h).2] at hkl; simp at hkl
    have hle := (hu.buf hu0).2.1
    rw [wp_bind]
    have hd := destroy_ok (triv := triv) hc h1 (show k < u.cap by omega) (Or.inl htriv)
    rw [wp_of_returns hd]
    have hread : Returns (Arg.ref (α := α) u.c k).get (t.put c ⟨u.cap, f⟩ k none) l[k]
        (t.put c ⟨u.cap, f⟩ k none) := by
      have hu' : Rep (t.put c ⟨u.cap, f⟩ k none) u l :=
        hut.mono (by simp [Ne.symm hcu]) (Nat.le_refl _)
      exact hu'.read_ok k hkl
    have hcon := construct_ok (i := k) (k := ⟨u.cap, fun y => if y = k then none else f y⟩) hc hread
      (by simp) (show k < u.cap by omega) (by simp)
    rw [wp_of_returns hcon]
    refine ⟨⟨fun y => if y = k then some l[k] else f y, ?_, ?_⟩, ?_, h3, h4⟩
    · simp only [made_blk, put_blk, if_true]
      congr 2
      funext y
      grind
    · intro i
      simp only [h1']
      grind
    · intro b hb
      simp only [made_blk, put_blk, if_neg hb]; exact h2 b hb

theorem copyAssign_full {triv : Bool} {m : Mem α} {v u : Vec} {k l : List α} (hw : m.WF)
    (hv : Rep m v k) (hu : Rep m u l) (hvu : v.c ≠ 0 → v.c ≠ u.c) (ht : triv = true ∨ l = []) :
    wp (copyAssign triv v u) (fun v' m' => Rep m' v' l ∧ v'.cap = u.cap ∧ Frame m m' v v' ∧ m'.WF ∧
      (v'.c ≠ v.c ∨ v'.c = 0)) m := by
  unfold copyAssign copyAssignWith
  rw [wp_bind]
  refine wp_mono (clear_ok hw hv) ?_
  rintro v1 m1 ⟨rfl, f1, w1, n1⟩
  have hu1 : Rep m1 u l := by
    refine hu.mono ?_ f1.next
    by_cases h0 : u.c = 0
    · rw [h0, w1.null, hw.null]
    · by_cases h1 : v.c = 0
      · exact f1.other _ (by omega) h0
      · exact f1.other _ (Ne.symm (hvu h1)) h0
  rw [wp_bind]
  refine wp_mono (resize_ok w1 (Rep.empty w1) u.cap) ?_
  rintro v2 m2 ⟨r2, c2, f2, w2, g2⟩
  have hsz := hu.size
  have hfu : ∀ b, b ≠ v2.c → m2.blk b = m1.blk b := by
    intro b hb
    by_cases h0 : b = 0
    · rw [h0, w2.null, w1.null]
    · exact f2.other b h0 hb
  have hu2 : Rep m2 u l := by
    refine hu1.mono ?_ f2.next
    by_cases h0 : u.c = v2.c
    · rcases f2.new with h | h | h
      · rw [h0, h]; show m2.blk 0 = m1.blk 0; rw [w2.null, w1.null]
      · rw [h0, h, w2.null, w1.null]
      · have := hu1.fresh; omega
    · exact hfu _ h0
  simp only
  by_cases hc0 : v2.c = 0
  · -- the source has no buffer
    have he := (r2.null hc0).1
    have hucap : u.cap = 0 := by rw [← c2, he]; rfl
    have hu0 : u.c = 0 := by
      rcases Nat.eq_zero_or_pos u.c with h | h
      · exact h
      · exact absurd hucap (hu.buf (by omega)).1
    obtain ⟨rfl, rfl⟩ := hu.null hu0
    subst he
    rw [wp_bind]
    simp only [Vec.empty, forRange]
    rw [wp_pure, wp_pure]
    refine ⟨Rep.empty w2, rfl, ⟨?_, ?_, Or.inr (Or.inl rfl), ?_, ?_⟩, w2, Or.inr rfl⟩
    · intro b hb1 hb2; rw [hfu b hb2]; exact f1.other b hb1 hb2
    · intro hb1 hb2; rw [hfu _ hb2]; exact f1.gone (Ne.symm hb2) hb2
    · exact Nat.le_trans f1.next f2.next
    · rw [f2.lost, f1.lost]
  · have hfresh : m.next ≤ v2.c := by
      rcases f2.new with h | h | h
      · exact absurd h hc0
      · exact absurd h hc0
      · omega
    have hcu : v2.c ≠ u.c := by have := hu.fresh; omega
    obtain ⟨p1, p2, f, p3, p4⟩ := r2.buf hc0
    have hblk : m2.blk v2.c = some ⟨u.cap, fun _ => none⟩ := by
      rw [p3, c2]; congr 2; funext i; simp [p4]
    rw [wp_bind]
    refine wp_mono (copyCtorLoop w2 hc0 r2.fresh hcu hu2 ht hblk) ?_
    rintro _ m3 ⟨q1, q2, q3, q4, q5⟩
    rw [wp_pure]
    have hu0 : u.c ≠ 0 := by
      intro h
      have := (hu.null h).1
      rw [this] at c2
      exact p1 c2
    refine ⟨⟨fun h => absurd h hc0, fun _ => ⟨p1, ?_, ?_⟩, hsz, ?_⟩, c2, ⟨?_, ?_, ?_, ?_, ?_⟩, q5,
      Or.inl (by have := hv.fresh; simp only; omega)⟩
    · simp only [c2]; exact (hu.buf hu0).2.1
    · simp only [c2]; exact q1
    · simp only [q3]; exact r2.fresh
    · intro b hb1 hb2
      simp only at hb2
      rw [q2 b hb2, hfu b hb2]
      by_cases h0 : b = 0
      · rw [h0, w1.null, hw.null]
      · exact f1.other b hb1 h0
    · intro hb1 hb2
      simp only at hb1
      rw [q2 _ (Ne.symm hb1), hfu _ (Ne.symm hb1)]
      exact f1.gone (Ne.symm hb2) hb2
    · exact Or.inr (Or.inr hfresh)
    · rw [q3]; exact Nat.le_trans f1.next f2.next
    · rw [q4, f2.lost, f1.lost]

theorem copyAssign_ok {triv : Bool} {m : Mem α} {v u : Vec} {k l : List α} (hw : m.WF)
    (hv : Rep m v k) (hu : Rep m u l) (hvu : v.c ≠ 0 → v.c ≠ u.c) (ht : triv = true ∨ l = []) :
    wp (copyAssign triv v u) (fun v' m' => Rep m' v' l ∧ v'.cap = u.cap ∧ Frame m m' v v' ∧ m'.WF) m :=
  wp_mono (copyAssign_full hw hv hu hvu ht) fun _ _ h => ⟨h.1, h.2.1, h.2.2.1, h.2.2.2.1⟩

end Verif.Vec
