import Verif.VectorPool
import Verif.VectorLemmas
import Verif.Props.SMA
import Verif.Props.AllocSpec

/-! Helper lemmas: the functions of `Vector` on the bytes of the static pool do what they do on
blocks, as long as there is memory. -/

namespace Verif.Pool

open Prog Vec

variable {α : Type}

/-! ## The functions over an arbitrary memory are those of `Verif.Vector` -/

/-- Element memory made of blocks (`Verif.Vector`). -/
def memOps (al : Nat → Prog (Mem α) Nat) (triv : Bool) : MemOps (Mem α) α where
  alloc := al
  dealloc := Vec.dealloc
  read := Vec.read
  construct := Vec.construct
  destroy := Vec.destroy triv
  assign := Vec.assign

theorem resize_mem (al : Nat → Prog (Mem α) Nat) (triv : Bool) (v : Vec) (n : Nat) :
    resize (memOps al triv) v n = Vec.resizeWith al triv v n := rfl
theorem resizeFill_mem (al : Nat → Prog (Mem α) Nat) (triv : Bool) (v : Vec) (n : Nat) (e : Arg α) :
    resizeFill (memOps al triv) v n e = Vec.resizeFillWith al triv v n e := rfl
theorem ctorFill_mem (al : Nat → Prog (Mem α) Nat) (triv : Bool) (n : Nat) (e : Arg α) :
    ctorFill (memOps al triv) n e = Vec.ctorFillWith al triv n e := rfl
theorem clear_mem (al : Nat → Prog (Mem α) Nat) (triv : Bool) (v : Vec) :
    clear (memOps al triv) v = Vec.clear triv v := rfl
theorem pushBack_mem (al : Nat → Prog (Mem α) Nat) (triv : Bool) (v : Vec) (e : Arg α) :
    pushBack (memOps al triv) v e = Vec.pushBackWith al triv v e := rfl
theorem popBack_mem (al : Nat → Prog (Mem α) Nat) (triv : Bool) (v : Vec) :
    popBack (memOps al triv) v = Vec.popBackWith al triv v := rfl
theorem index_mem (al : Nat → Prog (Mem α) Nat) (triv : Bool) (v : Vec) (i : Int) :
    index (memOps al triv) v i = Vec.index v i := rfl
theorem setIndex_mem (al : Nat → Prog (Mem α) Nat) (triv : Bool) (v : Vec) (i : Int) (e : Arg α) :
    setIndex (memOps al triv) v i e = Vec.setIndex v i e := rfl
theorem back_mem (al : Nat → Prog (Mem α) Nat) (triv : Bool) (v : Vec) :
    back (memOps al triv) v = Vec.back v := rfl
theorem front_mem (al : Nat → Prog (Mem α) Nat) (triv : Bool) (v : Vec) :
    front (memOps al triv) v = Vec.front v := rfl
theorem iterate_mem (al : Nat → Prog (Mem α) Nat) (triv : Bool) (v : Vec) :
    iterate (memOps al triv) v = Vec.iterate v := rfl
theorem copyAssign_mem (al : Nat → Prog (Mem α) Nat) (triv : Bool) (v u : Vec) :
    copyAssign (memOps al triv) v u = Vec.copyAssignWith al triv v u := rfl
theorem moveAssign_mem (al : Nat → Prog (Mem α) Nat) (triv : Bool) (v u : Vec) :
    moveAssign (memOps al triv) v u = Vec.moveAssign triv v u := rfl

/-! ## Running a bind backwards -/

theorem returns_bind {σ β γ : Type} {p : Prog σ β} {g : β → Prog σ γ} {s t : σ} {b : γ}
    (h : Returns (p >>= g) s b t) : ∃ a u, Returns p s a u ∧ Returns (g a) u b t := by
  obtain ⟨a, u, h1, b', t', h2, h3⟩ := (wp_bind p g (fun b' t' => b' = b ∧ t' = t) s).1 ⟨b, t, h, rfl, rfl⟩
  obtain ⟨rfl, rfl⟩ := h3
  exact ⟨a, u, h1, h2⟩

theorem returns_pure {σ β : Type} {a b : β} {s t : σ} (h : Returns (pure a : Prog σ β) s b t) :
    b = a ∧ t = s := by cases h; exact ⟨rfl, rfl⟩

theorem returns_check {σ : Type} {P : Prop} [Decidable P] {e : Fault} {s t : σ}
    (h : Returns (check P e) s () t) : P ∧ t = s := by
  unfold Returns check at h
  split at h
  · cases h; exact ⟨by assumption, rfl⟩
  · cases h

theorem check_ok {σ : Type} {P : Prop} [Decidable P] {e : Fault} (s : σ) (h : P) :
    Returns (check P e) s () s := by unfold Returns check; rw [if_pos h]

theorem returns_access {m m' : Mem α} {b : Nat} {i : Int} {r : Blk α × Nat}
    (h : Returns (access b i) m r m') :
    m' = m ∧ b ≠ 0 ∧ ∃ k, m.blk b = some k ∧ i = (r.2 : Int) ∧ r.2 < k.len ∧ r.1 = k := by
  unfold Returns access at h
  split at h
  · cases h
  · rename_i hb
    split at h
    · cases h
    · rename_i k hk
      split at h
      · rename_i hi
        cases h
        exact ⟨rfl, hb, k, hk, by simp only; omega, by simp only; omega, rfl⟩
      · cases h

theorem returns_read {m m' : Mem α} {b : Nat} {i : Int} {x : α} (h : Returns (Vec.read b i) m x m') :
    m' = m ∧ b ≠ 0 ∧ ∃ k, ∃ j : Nat, m.blk b = some k ∧ i = (j : Int) ∧ j < k.len ∧ k.slot j = some x := by
  obtain ⟨⟨k', j⟩, u, h1, h2⟩ := returns_bind h
  obtain ⟨rfl, h3, k, h4, h5, h6, h7⟩ := returns_access h1
  simp only at h2 h5 h6 h7
  subst h7
  split at h2
  · rename_i y hy
    obtain ⟨rfl, rfl⟩ := returns_pure h2
    exact ⟨rfl, h3, k', j, h4, h5, h6, hy⟩
  · cases h2

theorem returns_get {m m' : Mem α} {e : Arg α} {x : α} (h : Returns e.get m x m') : m' = m := by
  cases e with
  | val y => exact (returns_pure h).2
  | ref b i => exact (returns_read h).1

/-! ## The relation between blocks and bytes -/

section
variable (c : Sma.Cfg) (K : Elem α)

/-- The number of bytes of `n` objects. -/
def bytes (n : Nat) : Int := ((K.size * n : Nat) : Int)

/-- The number of bytes of a block. -/
def blkBytes (m : Mem α) (b : Nat) : Int :=
  match m.blk b with
  | none => 0
  | some k => bytes K k.len

/-- The bytes requested for `n` objects do not overflow. -/
def Fit (n : Nat) : Prop := K.size * n + 8 < 2 ^ 31

/-- What else the pool is used for: blocks in other hands, and what they contain. -/
structure Rest where
  live : List (Nat × Int)
  mem : Nat → Sma.Cell

/-- Nothing else. -/
def Rest.nil : Rest := ⟨[], fun _ => .raw 0⟩

/-- The blocks that are in use, these being `own`. -/
def Owned (F : Rest) (own : List (Nat × Int)) (s : Sma.St) : Prop :=
  ∃ L, L.Perm (own ++ F.live) ∧ Sma.Reach c ⟨s, L⟩

/-- Block `b` is stored at address `f b`. -/
structure R (F : Rest) (f : Nat → Nat) (m : Mem α) (s : Sma.St) : Prop where
  wf : m.WF
  zero : ∀ b, f b = 0 ↔ b = 0
  held : ∃ bs : List Nat, bs.Nodup ∧ (∀ b, b ∈ bs ↔ m.blk b ≠ none) ∧
    Owned c F (bs.map fun b => (f b, blkBytes K m b)) s
  kept : ∀ p ∈ F.live, ∀ x, p.1 ≤ x → x < p.1 + Sma.up8 p.2 → s.mem x = F.mem x
  cells : ∀ b k i x, m.blk b = some k → i < k.len → k.slot i = some x →
    ∀ j, j < K.size → byteAt c s.mem (f b + (K.size * i + j)) = K.enc x j

end

variable {md : Sma.Mode} {c : Sma.Cfg} {K : Elem α} {F : Rest}

theorem byteCount_fit {n : Nat} (h : Fit K n) : AllocSpec.byteCount K.size n = bytes K n := by
  rw [AllocSpec.byteCount_eq]
  have e : ((n : Int) * (K.size : Int)) = ((K.size * n : Nat) : Int) := by
    rw [← Int.natCast_mul, Nat.mul_comm]
  rw [e]
  unfold Fit at h
  unfold bytes
  generalize K.size * n = z at *
  exact bmod32 _ (by omega) (by omega)

theorem up8_bytes (n : Nat) : Sma.up8 (bytes K n) = (K.size * n + 7) / 8 * 8 := by
  unfold bytes Sma.up8 Sma.roundUp
  generalize K.size * n = z
  omega

theorem bytes_pos {n : Nat} (h : n ≠ 0) : 0 < bytes K n := by
  have := Nat.mul_pos K.pos (Nat.pos_of_ne_zero h)
  unfold bytes
  omega

theorem pairwise_mem {β : Type} {S : β → β → Prop} (hs : ∀ a b, S a b → S b a) {l : List β}
    (h : l.Pairwise S) {a b : β} (ha : a ∈ l) (hb : b ∈ l) (hne : a ≠ b) : S a b := by
  induction h with
  | nil => cases ha
  | cons h1 _ ih =>
    rcases List.mem_cons.1 ha with rfl | ha' <;> rcases List.mem_cons.1 hb with rfl | hb'
    · exact absurd rfl hne
    · exact h1 _ hb'
    · exact hs _ _ (h1 _ ha')
    · exact ih ha' hb'

theorem disj_symm (a b : Sma.Block) (h : Sma.Disj a b) : Sma.Disj b a := by
  unfold Sma.Disj at *; omega

theorem Owned.perm {own own' : List (Nat × Int)} {s : Sma.St} (h : Owned c F own s)
    (hp : own.Perm own') : Owned c F own' s := by
  obtain ⟨L, h1, h2⟩ := h
  exact ⟨L, h1.trans (hp.append_right _), h2⟩

/-- A block is in use. -/
theorem R.live {f : Nat → Nat} {m : Mem α} {s : Sma.St} (h : R c K F f m s)
    {b : Nat} {k : Blk α} (hk : m.blk b = some k) :
    ∃ L, (f b, bytes K k.len) ∈ L ∧ (∀ p ∈ F.live, p ∈ L) ∧ Sma.Reach c ⟨s, L⟩ := by
  obtain ⟨bs, _, h2, L, hp, h3⟩ := h.held
  exact ⟨L, hp.mem_iff.2 (List.mem_append_left _ (List.mem_map.2
    ⟨b, (h2 b).2 (by rw [hk]; simp), by simp [blkBytes, hk]⟩)),
    fun p h => hp.mem_iff.2 (List.mem_append_right _ h), h3⟩

/-- The blocks in use lie in different places. -/
theorem Owned.apart (hc : Sma.Legal c) {own : List (Nat × Int)} {s : Sma.St} (h : Owned c F own s) :
    (own ++ F.live).Pairwise fun a b => Sma.Disj (a.1, Sma.up8 a.2) (b.1, Sma.up8 b.2) := by
  obtain ⟨L, h1, h2⟩ := h
  have hp := (Sma.sma_blocks_partial hc h2).2.1
  exact (h1.pairwise_iff (fun {a b} h => disj_symm _ _ h)).1 hp

/-- A block lies in the pool. -/
theorem R.inPool (hc : Sma.Legal c) {f : Nat → Nat} {m : Mem α} {s : Sma.St} (h : R c K F f m s)
    {b : Nat} {k : Blk α} (hk : m.blk b = some k) :
    c.base ≤ f b ∧ f b + (K.size * k.len + 7) / 8 * 8 ≤ c.base + c.M ∧ (f b - c.base) % 8 = 0 ∧ k.len ≠ 0 := by
  obtain ⟨t, hm, _, h3⟩ := h.live hk
  obtain ⟨L, hL⟩ := Sma.reach_inv hc h3
  have hf := hL.1.fitsV (b := (f b, Sma.up8 (bytes K k.len))) (List.mem_map.2 ⟨_, hm, rfl⟩)
  rw [up8_bytes] at hf
  obtain ⟨⟨g1, g2⟩, g3, _, g4⟩ := hf
  refine ⟨g1, g2, g3, ?_⟩
  rintro e
  simp [e] at g4

/-- Different blocks lie in different places. -/
theorem R.disj (hc : Sma.Legal c) {f : Nat → Nat} {m : Mem α} {s : Sma.St} (h : R c K F f m s)
    {b b' : Nat} {k k' : Blk α} (hk : m.blk b = some k) (hk' : m.blk b' = some k') (hne : b ≠ b') :
    Sma.Disj (f b, (K.size * k.len + 7) / 8 * 8) (f b', (K.size * k'.len + 7) / 8 * 8) := by
  obtain ⟨bs, _, h2, h3⟩ := h.held
  have hp := (List.pairwise_append.1 (h3.apart hc)).1
  rw [List.pairwise_map] at hp
  have := pairwise_mem (fun a b h => disj_symm _ _ h) hp ((h2 b).2 (by rw [hk]; simp))
    ((h2 b').2 (by rw [hk']; simp)) hne
  simpa [blkBytes, hk, hk', up8_bytes] using this

/-- Blocks in other hands lie elsewhere. -/
theorem R.away (hc : Sma.Legal c) {f : Nat → Nat} {m : Mem α} {s : Sma.St} (h : R c K F f m s)
    {b : Nat} {k : Blk α} (hk : m.blk b = some k) {p : Nat × Int} (hp : p ∈ F.live) :
    Sma.Disj (f b, (K.size * k.len + 7) / 8 * 8) (p.1, Sma.up8 p.2) := by
  obtain ⟨bs, _, h2, h3⟩ := h.held
  have := (List.pairwise_append.1 (h3.apart hc)).2.2 (f b, bytes K k.len)
    (List.mem_map.2 ⟨b, (h2 b).2 (by rw [hk]; simp), by simp [blkBytes, hk]⟩) p hp
  simpa [up8_bytes] using this

theorem R.congr {f : Nat → Nat} {m m' : Mem α} {s : Sma.St} (h : R c K F f m s)
    (hb : m'.blk = m.blk) (hn : m'.next = m.next) : R c K F f m' s := by
  obtain ⟨h1, h2, h3, h4, h5⟩ := h
  refine ⟨⟨by rw [hn]; exact h1.pos, by rw [hn, hb]; exact h1.unused, by rw [hb]; exact h1.null⟩, h2,
    ?_, h4, by rw [hb]; exact h5⟩
  have e : blkBytes K m' = blkBytes K m := by funext b; simp [blkBytes, hb]
  rw [e, hb]; exact h3

/-! ## Writing an object -/

/-- Storing the first `t` times eight bytes. -/
def pokeN (t : Nat) (m : Nat → Sma.Cell) (p : Nat) (g : Nat → Sma.Cell) : Nat → Sma.Cell := fun y =>
  if p ≤ y ∧ y < p + 8 * t ∧ (y - p) % 8 = 0 then g ((y - p) / 8) else m y

theorem poke_eq (K : Layout α) (m : Nat → Sma.Cell) (p : Nat) (g : Nat → Sma.Cell) :
    poke K m p g = pokeN K.words m p g := rfl

theorem pokeN_zero (m : Nat → Sma.Cell) (p : Nat) (g : Nat → Sma.Cell) : pokeN 0 m p g = m := by
  funext y; unfold pokeN; rw [if_neg (by omega)]

theorem pokeN_succ (t : Nat) (m : Nat → Sma.Cell) (p : Nat) (g : Nat → Sma.Cell) :
    pokeN (t + 1) m p g = Sma.upd (pokeN t m p g) (p + 8 * t) (g t) := by
  funext y
  unfold pokeN Sma.upd
  by_cases hy : y = p + 8 * t
  · rw [if_pos hy, if_pos (by omega)]
    congr 1; omega
  · rw [if_neg hy]
    show _ = if _ then _ else _
    by_cases h : p ≤ y ∧ y < p + 8 * t ∧ (y - p) % 8 = 0
    · rw [if_pos h, if_pos (by omega)]
    · rw [if_neg h, if_neg (by omega)]

theorem reach_pokeN' {w : Sma.World} (h : Sma.Reach c w) {a : Nat} {n : Int} (hm : (a, n) ∈ w.live)
    {o : Nat} (g : Nat → Sma.Cell) (t : Nat) (ht : 8 * ((o + t : Nat) : Int) < n + 8) :
    Sma.Reach c ⟨{ w.st with mem := pokeN t w.st.mem (a + 8 * o) g }, w.live⟩ := by
  induction t with
  | zero => rw [pokeN_zero]; exact h
  | succ t ih =>
    rw [pokeN_succ]
    refine Sma.Reach.step (ih (by omega)) (op := .write a n (o + t) (g t)) (a := 0) ⟨hm, by omega⟩ ?_
    have e : a + 8 * o + 8 * t = a + 8 * (o + t) := by omega
    rw [e]; rfl

theorem reach_pokeN {w : Sma.World} (h : Sma.Reach c w) {a : Nat} {n : Int} (hm : (a, n) ∈ w.live)
    {o : Nat} (g : Nat → Sma.Cell) (t : Nat) (ht : 8 * ((o + t : Nat) : Int) ≤ n) :
    Sma.Reach c ⟨{ w.st with mem := pokeN t w.st.mem (a + 8 * o) g }, w.live⟩ :=
  reach_pokeN' h hm g t (by omega)

/-! ### Single bytes -/

theorem byteOf_ofBytes (g : Nat → Byte) {j : Nat} (hj : j < 8) : byteOf (ofBytes g) j = g j := by
  apply Fin.ext
  show byteSum g 8 / 256 ^ j % 256 = (g j).val
  simp only [byteSum]
  have h0 := (g 0).isLt
  have h1 := (g 1).isLt
  have h2 := (g 2).isLt
  have h3 := (g 3).isLt
  have h4 := (g 4).isLt
  have h5 := (g 5).isLt
  have h6 := (g 6).isLt
  have h7 := (g 7).isLt
  match j, hj with
  | 0, _ => omega
  | 1, _ => omega
  | 2, _ => omega
  | 3, _ => omega
  | 4, _ => omega
  | 5, _ => omega
  | 6, _ => omega
  | 7, _ => omega

theorem byteAt_poke (m : Nat → Sma.Cell) {p a : Nat} (n : Nat) (g : Nat → Byte) (ha : c.base ≤ a) :
    byteAt c (pokeBytes c m p n g) a = if p ≤ a ∧ a < p + n then g (a - p) else byteAt c m a := by
  have hy : c.base + (a - c.base) / 8 * 8 + (a - c.base) % 8 = a := by omega
  have hm8 : (a - c.base) % 8 < 8 := Nat.mod_lt _ (by omega)
  have hd : (c.base + (a - c.base) / 8 * 8 - c.base) % 8 = 0 := by omega
  unfold byteAt pokeBytes
  by_cases h : c.base + (a - c.base) / 8 * 8 < p + n ∧ p < c.base + (a - c.base) / 8 * 8 + 8
  · rw [if_pos ⟨by omega, hd, h⟩, byteOf_ofBytes _ hm8, hy]
  · rw [if_neg (fun h' => h h'.2.2), if_neg (by omega)]

/-- The bytes of a block are part of its cells. -/
theorem byteAt_congr {m m' : Nat → Sma.Cell} {b o l : Nat} (hb : c.base ≤ b) (h8 : (b - c.base) % 8 = 0)
    (ho : o < l) (h : ∀ x, b ≤ x → x < b + (l + 7) / 8 * 8 → m' x = m x) :
    byteAt c m' (b + o) = byteAt c m (b + o) := by
  unfold byteAt
  rw [h _ (by omega) (by omega)]

/-- Bytes stored in a block are written cell by cell. -/
theorem poke_cells {b n o l : Nat} (m : Nat → Sma.Cell) (g : Nat → Byte) (hb : c.base ≤ b)
    (h8 : (b - c.base) % 8 = 0) (hl : o + n ≤ l) :
    pokeBytes c m (b + o) n g = pokeN ((l + 7) / 8) m b (fun k => pokeBytes c m (b + o) n g (b + 8 * k)) := by
  funext y
  unfold pokeN
  by_cases h : b ≤ y ∧ y < b + 8 * ((l + 7) / 8) ∧ (y - b) % 8 = 0
  · rw [if_pos h]
    congr 1
    omega
  · rw [if_neg h]
    unfold pokeBytes
    rw [if_neg]
    rintro ⟨h1, h2, h3, h4⟩
    apply h
    omega

theorem mul_slot {w i j : Nat} (h : i < j) : w * i + w ≤ w * j := by
  have := Nat.mul_le_mul_left w (Nat.succ_le_of_lt h)
  rw [Nat.mul_succ] at this; exact this

theorem R.put (hc : Sma.Legal c) {f : Nat → Nat} {m : Mem α} {s : Sma.St} (h : R c K F f m s)
    {b : Nat} {k : Blk α} (hk : m.blk b = some k) {j : Nat} (hj : j < k.len) (o : Option α)
    (g : Nat → Byte) (ho : ∀ x, o = some x → ∀ t, t < K.size → g t = K.enc x t) :
    R c K F f (m.put b k j o) { s with mem := pokeBytes c s.mem (f b + K.size * j) K.size g } := by
  obtain ⟨bs, h1, h2, L, hp, h3⟩ := h.held
  obtain ⟨i1, i2, i3, _⟩ := h.inPool hc hk
  have hb0 : b ≠ 0 := by rintro rfl; rw [h.wf.null] at hk; cases hk
  have hslot := mul_slot (w := K.size) hj
  refine ⟨⟨h.wf.pos, ?_, ?_⟩, h.zero, ⟨bs, h1, ?_, L, ?_, ?_⟩, ?_, ?_⟩
  · intro x hx
    rw [put_blk, if_neg, h.wf.unused x hx]
    rintro rfl; rw [h.wf.unused _ hx] at hk; cases hk
  · rw [put_blk, if_neg (Ne.symm hb0)]; exact h.wf.null
  · intro x
    rw [h2, put_blk]
    by_cases hx : x = b
    · subst hx; simp [hk]
    · rw [if_neg hx]
  · have e : (blkBytes K (m.put b k j o)) = blkBytes K m := by
      funext x
      unfold blkBytes
      rw [put_blk]
      by_cases hx : x = b
      · subst hx; simp [hk]
      · rw [if_neg hx]
    rw [e]; exact hp
  · rw [poke_cells s.mem g i1 i3 hslot]
    have := reach_pokeN' h3 (a := f b) (n := bytes K k.len)
      (hp.mem_iff.2 (List.mem_append_left _ (List.mem_map.2
        ⟨b, (h2 b).2 (by rw [hk]; simp), by simp [blkBytes, hk]⟩))) (o := 0)
      (fun k => pokeBytes c s.mem (f b + K.size * j) K.size g (f b + 8 * k)) ((K.size * k.len + 7) / 8) (by
        unfold bytes
        generalize K.size * k.len = y
        omega)
    exact this
  · intro p hp x hx hx'
    rw [← h.kept p hp x hx hx']
    show pokeBytes c s.mem (f b + K.size * j) K.size g x = s.mem x
    rw [poke_cells s.mem g i1 i3 hslot]
    unfold pokeN
    rw [if_neg]
    rintro ⟨q1, q2, _⟩
    have hd := h.away hc hk hp
    unfold Sma.Disj at hd
    simp only at hd
    omega
  · intro b' k' i x hb' hi hx t ht
    rw [put_blk] at hb'
    by_cases hbb : b' = b
    · subst hbb
      rw [if_pos rfl] at hb'
      cases hb'
      simp only at hi hx
      rw [byteAt_poke _ _ _ (by omega)]
      by_cases hij : i = j
      · subst hij
        rw [if_pos rfl] at hx
        rw [if_pos (by omega), ← ho x hx t ht]
        congr 1; omega
      · rw [if_neg hij] at hx
        rw [if_neg]
        · exact h.cells _ k i x hk hi hx t ht
        · rcases Nat.lt_or_gt_of_ne hij with hlt | hlt
          · have := mul_slot (w := K.size) hlt
            omega
          · have := mul_slot (w := K.size) hlt
            omega
    · rw [if_neg hbb] at hb'
      have hd := h.disj hc hk hb' (Ne.symm hbb)
      have hs' := mul_slot (w := K.size) hi
      have hin := (h.inPool hc hb').1
      rw [byteAt_poke _ _ _ (by omega), if_neg]
      · exact h.cells _ k' i x hb' hi hx t ht
      · unfold Sma.Disj at hd
        simp only at hd
        omega

/-! ## Access -/

theorem addr_nat (p i : Nat) : addr K p (i : Int) = p + K.size * i := by
  unfold addr
  rw [← Int.natCast_mul]
  omega

theorem touch_ok (hc : Sma.Legal c) {f : Nat → Nat} {m : Mem α} {s : Sma.St} (h : R c K F f m s)
    {b : Nat} {k : Blk α} (hk : m.blk b = some k) {j : Nat} (hj : j < k.len) (t : Sma.St) :
    f b + K.size * j ≠ 0 ∧ Returns (touchElem c K (f b + K.size * j)) t () t := by
  obtain ⟨g1, g2, g3, _⟩ := h.inPool hc hk
  have hslot := mul_slot (w := K.size) hj
  have h0 := hc.obj
  have hb : c.base = c.obj + 4 := rfl
  have hne : f b + K.size * j ≠ 0 := by omega
  refine ⟨hne, ?_⟩
  unfold Returns touchElem
  rw [bind_returns (check_ok t hne)]
  apply check_ok
  omega

theorem load_ok (hc : Sma.Legal c) {f : Nat → Nat} {m m' : Mem α} {s : Sma.St} (h : R c K F f m s)
    {b : Nat} {i : Int} {x : α} (hr : Returns (Vec.read b i) m x m') :
    Returns (loadElem c K (addr K (f b) i)) s x s := by
  obtain ⟨_, _, k, j, hk, rfl, hj, hx⟩ := returns_read hr
  rw [addr_nat]
  unfold Returns loadElem
  rw [bind_returns (touch_ok hc h hk hj s).2, bind_returns (show Returns Prog.get s s s from rfl)]
  have := K.dec_enc x (fun t => byteAt c s.mem (f b + K.size * j + t)) (fun t ht => by
    have := h.cells b k j x hk hj hx t ht
    rw [← this]
    congr 1; omega)
  rw [this]; rfl

/-- Translate a reference. -/
def argMap (f : Nat → Nat) : Arg α → Arg α
  | .val x => .val x
  | .ref b i => .ref (f b) i

theorem getArg_ok (hc : Sma.Legal c) {f : Nat → Nat} {m m' : Mem α} {s : Sma.St} (h : R c K F f m s)
    {e : Arg α} {x : α} (hr : Returns e.get m x m') :
    Returns (getArg c K (argMap f e)) s x s := by
  cases e with
  | val y => obtain ⟨rfl, _⟩ := returns_pure hr; rfl
  | ref b i => exact load_ok hc h hr

theorem save_ok (hc : Sma.Legal c) {f : Nat → Nat} {m : Mem α} {s : Sma.St} (h : R c K F f m s)
    {b : Nat} {k : Blk α} (hk : m.blk b = some k) {j : Nat} (hj : j < k.len) (g : Nat → Byte) :
    Returns (saveElem c K (f b + K.size * j) g) s ()
      { s with mem := pokeBytes c s.mem (f b + K.size * j) K.size g } := by
  unfold Returns saveElem
  rw [bind_returns (touch_ok hc h hk hj s).2]
  rfl

/-! ## Simulation -/

/-- Later states: addresses of blocks stay. -/
structure Ext (f : Nat → Nat) (m : Mem α) (f' : Nat → Nat) (m' : Mem α) : Prop where
  same : ∀ b, b < m.next → f' b = f b
  next : m.next ≤ m'.next

theorem Ext.refl (f : Nat → Nat) (m : Mem α) : Ext f m f m := ⟨fun _ _ => rfl, Nat.le_refl _⟩

theorem Ext.trans {f f1 f2 : Nat → Nat} {m m1 m2 : Mem α} (h : Ext f m f1 m1) (h' : Ext f1 m1 f2 m2) :
    Ext f m f2 m2 :=
  ⟨fun b hb => (h'.same b (Nat.lt_of_lt_of_le hb h.next)).trans (h.same b hb),
    Nat.le_trans h.next h'.next⟩

/-- Whenever `p` returns on blocks, `q` on the bytes stops for lack of memory, which needs `P`, or
returns in a related state. -/
def Sim (c : Sma.Cfg) (K : Elem α) (F : Rest) (P : Prop) {β γ : Type} (f : Nat → Nat) (m : Mem α) (s : Sma.St)
    (p : Prog (Mem α) β) (q : Prog Sma.St γ) (A : (Nat → Nat) → Mem α → β → γ → Prop) : Prop :=
  ∀ a m', Returns p m a m' → (P ∧ Faults q s .crash) ∨
    ∃ a' s' f', Returns q s a' s' ∧ Ext f m f' m' ∧ R c K F f' m' s' ∧ A f' m' a a'

section
variable {P : Prop} {β γ β' γ' : Type} {f : Nat → Nat} {m : Mem α} {s : Sma.St}

theorem Sim.bind {p : Prog (Mem α) β} {q : Prog Sma.St γ} {A : (Nat → Nat) → Mem α → β → γ → Prop}
    {g : β → Prog (Mem α) β'} {h : γ → Prog Sma.St γ'} {B : (Nat → Nat) → Mem α → β' → γ' → Prop}
    (h1 : Sim c K F P f m s p q A)
    (h2 : ∀ f' m' s' a a', Ext f m f' m' → R c K F f' m' s' → A f' m' a a' → Returns p m a m' →
      Sim c K F P f' m' s' (g a) (h a') B) :
    Sim c K F P f m s (p >>= g) (q >>= h) B := by
  intro b m2 hr
  obtain ⟨a, m1, r1, r2⟩ := returns_bind hr
  rcases h1 a m1 r1 with ⟨hp, hf⟩ | ⟨a', s', f', g1, g2, g3, g4⟩
  · exact Or.inl ⟨hp, bind_faults hf⟩
  · rcases h2 f' m1 s' a a' g2 g3 g4 r1 b m2 r2 with ⟨hp, hf⟩ | ⟨b', s2, f2, e1, e2, e3, e4⟩
    · exact Or.inl ⟨hp, by unfold Faults; rw [bind_returns g1]; exact hf⟩
    · exact Or.inr ⟨b', s2, f2, by unfold Returns; rw [bind_returns g1]; exact e1, g2.trans e2, e3, e4⟩

theorem Sim.pure {a : β} {a' : γ} {A : (Nat → Nat) → Mem α → β → γ → Prop} (hR : R c K F f m s)
    (h : A f m a a') : Sim c K F P f m s (Pure.pure a) (Pure.pure a') A := by
  intro b m' hr
  obtain ⟨rfl, rfl⟩ := returns_pure hr
  exact Or.inr ⟨a', s, f, rfl, Ext.refl _ _, hR, h⟩

theorem Sim.mono {p : Prog (Mem α) β} {q : Prog Sma.St γ} {A B : (Nat → Nat) → Mem α → β → γ → Prop}
    {Q : Prop} (h : Sim c K F P f m s p q A) (hp : P → Q)
    (hA : ∀ f' m' a a', Ext f m f' m' → A f' m' a a' → B f' m' a a') : Sim c K F Q f m s p q B := by
  intro a m' hr
  rcases h a m' hr with ⟨h1, h2⟩ | ⟨a', s', f', g1, g2, g3, g4⟩
  · exact Or.inl ⟨hp h1, h2⟩
  · exact Or.inr ⟨a', s', f', g1, g2, g3, hA _ _ _ _ g2 g4⟩

/-- The relation between results that are not pointers. -/
def Triv (_ : Nat → Nat) (_ : Mem α) (_ _ : Unit) : Prop := True

theorem Sim.check {Q Q' : Prop} [Decidable Q] [Decidable Q'] {e e' : Fault} (hR : R c K F f m s)
    (h : Q → Q') : Sim c K F P f m s (check Q e) (check Q' e') Triv := by
  intro a m' hr
  obtain ⟨h1, rfl⟩ := returns_check hr
  exact Or.inr ⟨(), s, f, check_ok s (h h1), Ext.refl _ _, hR, trivial⟩

theorem Sim.when {Q Q' : Prop} [Decidable Q] [Decidable Q'] {p : Prog (Mem α) Unit}
    {q : Prog Sma.St Unit} (hR : R c K F f m s) (hQ : Q ↔ Q') (h : Q → Sim c K F P f m s p q Triv) :
    Sim c K F P f m s (when Q p) (when Q' q) Triv := by
  unfold Prog.when
  by_cases hq : Q
  · rw [if_pos hq, if_pos (hQ.1 hq)]; exact h hq
  · rw [if_neg hq, if_neg (fun h => hq (hQ.2 h))]; exact Sim.pure hR trivial

theorem Sim.forRange {g : Nat → Unit → Prog (Mem α) Unit} {h : Nat → Unit → Prog Sma.St Unit}
    (n lo : Nat) (hR : R c K F f m s)
    (hb : ∀ i f' m' s', lo ≤ i → i < lo + n → Ext f m f' m' → R c K F f' m' s' →
      Sim c K F P f' m' s' (g i ()) (h i ()) Triv) :
    Sim c K F P f m s (forRange n lo () g) (forRange n lo () h) Triv := by
  induction n generalizing lo f m s with
  | zero => exact Sim.pure hR trivial
  | succ n ih =>
    unfold Prog.forRange
    refine Sim.bind (hb lo f m s (Nat.le_refl _) (by omega) (Ext.refl _ _) hR) ?_
    intro f1 m1 s1 _ _ h1 h2 _ _
    exact ih (lo + 1) h2 (fun i f' m' s' hi hi' he hr =>
      hb i f' m' s' (by omega) (by omega) (h1.trans he) hr)

theorem construct_sim (hc : Sma.Legal c) (hR : R c K F f m s) (b : Nat) (i : Int) (e : Arg α) :
    Sim c K F P f m s (Vec.construct b i e) ((poolOps md c K).construct (f b) i (argMap f e)) Triv := by
  intro a m' hr
  obtain ⟨_, u, r1, hr1⟩ := returns_bind hr
  obtain ⟨_, rfl⟩ := returns_check r1
  obtain ⟨x, u, r2, hr2⟩ := returns_bind hr1
  have := returns_get r2
  subst this
  obtain ⟨⟨k', j⟩, u', r3, hr3⟩ := returns_bind hr2
  obtain ⟨rfl, hb0, k, hk, rfl, hj, hkk⟩ := returns_access r3
  simp only at hkk hj hr3 ⊢
  subst hkk
  cases hr3
  refine Or.inr ⟨(), _, f, ?_, ⟨fun _ _ => rfl, Nat.le_refl _⟩, R.congr (hR.put hc hk hj (some x) (K.enc x) ?_) rfl rfl, trivial⟩
  · show Returns (_ >>= _) _ _ _
    rw [addr_nat]
    unfold Returns
    rw [bind_returns (check_ok s (touch_ok hc hR hk hj s).1), bind_returns (getArg_ok hc hR r2)]
    exact save_ok hc hR hk hj _
  · rintro y ⟨⟩ t ht; rfl

theorem assign_sim (hc : Sma.Legal c) (hR : R c K F f m s) (b : Nat) (i : Int) (e : Arg α) :
    Sim c K F P f m s (Vec.assign b i e) ((poolOps md c K).assign (f b) i (argMap f e)) Triv := by
  intro a m' hr
  obtain ⟨x, u, r2, hr1⟩ := returns_bind hr
  have := returns_get r2
  subst this
  obtain ⟨⟨k', j⟩, u', r3, hr2⟩ := returns_bind hr1
  obtain ⟨rfl, hb0, k, hk, rfl, hj, hkk⟩ := returns_access r3
  simp only at hkk hj hr2 ⊢
  subst hkk
  obtain ⟨_, u, r1, hr3⟩ := returns_bind hr2
  obtain ⟨_, rfl⟩ := returns_check r1
  cases hr3
  refine Or.inr ⟨(), _, f, ?_, ⟨fun _ _ => rfl, Nat.le_refl _⟩, R.congr (hR.put hc hk hj (some x) (K.enc x) ?_) rfl rfl, trivial⟩
  · show Returns (_ >>= _) _ _ _
    rw [addr_nat]
    unfold Returns
    rw [bind_returns (getArg_ok hc hR r2)]
    exact save_ok hc hR hk hj _
  · rintro y ⟨⟩ t ht; rfl

theorem destroy_sim (hc : Sma.Legal c) (hR : R c K F f m s) (b : Nat) (i : Int) :
    Sim c K F P f m s (Vec.destroy K.triv b i) ((poolOps md c K).destroy (f b) i) Triv := by
  intro a m' hr
  obtain ⟨_, u, r1, hr1⟩ := returns_bind hr
  obtain ⟨_, rfl⟩ := returns_check r1
  obtain ⟨⟨k', j⟩, u', r3, hr2⟩ := returns_bind hr1
  obtain ⟨rfl, hb0, k, hk, rfl, hj, hkk⟩ := returns_access r3
  simp only at hkk hj hr2 ⊢
  subst hkk
  obtain ⟨_, u, r1, hr3⟩ := returns_bind hr2
  obtain ⟨hok, rfl⟩ := returns_check r1
  cases hr3
  refine Or.inr ⟨(), _, f, ?_, ⟨fun _ _ => rfl, Nat.le_refl _⟩, hR.put hc hk hj none
    (K.fin fun t => byteAt c s.mem (f b + K.size * j + t)) (by rintro y ⟨⟩), trivial⟩
  show Returns (_ >>= _) _ _ _
  rw [addr_nat]
  unfold Returns
  rw [bind_returns (check_ok s (touch_ok hc hR hk hj s).1), bind_returns (touch_ok hc hR hk hj s).2,
    bind_returns (show Returns Prog.get s s s from rfl), bind_returns (check_ok s ?_)]
  rotate_left
  · rcases hok with hok | hok
    · exact Or.inl hok
    · right
      obtain ⟨x, hx⟩ := Option.isSome_iff_exists.1 hok
      rw [K.dec_enc x _ (fun t ht => ?_)]
      · rfl
      · rw [← hR.cells b _ j x hk hj hx t ht]
        congr 1; omega
  exact save_ok hc hR hk hj _

/-! ### Obtaining and returning memory -/

/-- Even after merging, no free block has `n` bytes. -/
def NoRoom (c : Sma.Cfg) (s : Sma.St) (n : Int) : Prop :=
  ∃ t, Returns (Sma.merge c) s () t ∧ ¬ ∃ b, Sma.FreeBlock c t b ∧ Sma.up8 n ≤ b.2

theorem alloc_contents (hc : Sma.Legal c) {w : Sma.World} (h : Sma.Reach c w) {n : Int} (hn : 0 < n)
    (hm : n + 8 < 2 ^ 31) {a : Nat} {t : Sma.St} (hr : Returns (Sma.alloc c n) w.st a t) (ha : a ≠ 0) :
    ∀ p ∈ w.live, ∀ x, p.1 ≤ x → x < p.1 + Sma.up8 p.2 → t.mem x = w.st.mem x := by
  intro p hp x h1 h2
  refine Sma.sma_contents hc h (op := .alloc n) (a := a) (w' := ⟨t, (a, n) :: w.live⟩) ⟨hn, hm⟩
    (fun _ _ _ _ e => by cases e) ?_ p hp (List.mem_cons_of_mem _ hp) x h1 h2
  unfold Returns Sma.step
  refine (bind_returns (Sma.onSt_returns hr)).trans ?_
  refine (bind_returns (a := ()) (s' := ⟨t, (a, n) :: w.live⟩) ?_).trans rfl
  unfold Returns Prog.modify
  simp only
  rw [if_neg ha]

theorem portAlloc_contents (hc : Sma.Legal c) {w : Sma.World} (h : Sma.Reach c w) {n : Int} (hn : 0 < n)
    (hm : n + 8 < 2 ^ 31) {a : Nat} {t : Sma.St} (hr : Returns (Sma.portAlloc c n) w.st a t) :
    ∀ p ∈ w.live, ∀ x, p.1 ≤ x → x < p.1 + Sma.up8 p.2 → t.mem x = w.st.mem x := by
  obtain ⟨p1, s1, r1, r2⟩ := returns_bind hr
  split at r2
  · rename_i h0
    subst h0
    obtain ⟨a2, s2, e1, _, e2⟩ := Sma.sma_success_partial hc h hn hm
    obtain ⟨rfl, rfl⟩ := r1.det e1
    have e2 := e2 rfl
    subst e2
    obtain ⟨_, s3, r3, r4⟩ := returns_bind r2
    obtain ⟨a4, s4, r5, r6⟩ := returns_bind r4
    obtain ⟨_, s5, r7, r8⟩ := returns_bind r6
    obtain ⟨h4, rfl⟩ := returns_check r7
    obtain ⟨rfl, rfl⟩ := returns_pure r8
    intro p hp x h1 h2
    obtain ⟨s3', g1, _, g2, _⟩ := Sma.sma_merge hc h
    obtain ⟨_, rfl⟩ := r3.det g1
    rw [← g2 p hp x h1 h2]
    exact alloc_contents hc (Sma.reach_merge h r3) hn hm r5 h4 p hp x h1 h2
  · rename_i h0
    obtain ⟨rfl, rfl⟩ := returns_pure r2
    exact alloc_contents hc h hn hm r1 h0

theorem portDealloc_contents (hc : Sma.Legal c) {w : Sma.World} (h : Sma.Reach c w) {a : Nat} {n : Int}
    (hm : (a, n) ∈ w.live) {t : Sma.St} (hr : Returns (Sma.portDealloc c a n) w.st () t) :
    ∀ p ∈ w.live.erase (a, n), ∀ x, p.1 ≤ x → x < p.1 + Sma.up8 p.2 → t.mem x = w.st.mem x := by
  obtain ⟨r, s1, r1, r2⟩ := returns_bind hr
  obtain ⟨_, rfl⟩ := returns_check r2
  intro p hp x h1 h2
  refine Sma.sma_contents hc h (op := .free a n) (a := 0) (w' := ⟨t, w.live.erase (a, n)⟩) hm
    (fun _ _ _ _ e => by cases e) ?_ p (List.mem_of_mem_erase hp) hp x h1 h2
  unfold Returns Sma.step
  exact (bind_returns (Sma.onSt_returns r1)).trans rfl

/-- Where block `b` is put. -/
def place (f : Nat → Nat) (b a : Nat) : Nat → Nat := fun x => if x = b then a else f x

/-- The relation between pointers. -/
def PtrR (f : Nat → Nat) (m : Mem α) (b b' : Nat) : Prop := b' = f b ∧ b < m.next ∧ b ≠ 0

/-- Blocks and bytes after a request has been satisfied. -/
theorem R.grow (hc : Sma.Legal c) (hR : R c K F f m s) {n a : Nat} {s' : Sma.St} (e2 : a ≠ 0)
    (h : ∀ live, Sma.Reach c ⟨s, live⟩ → Sma.Reach c ⟨s', (a, bytes K n) :: live⟩ ∧
      ∀ p ∈ live, ∀ x, p.1 ≤ x → x < p.1 + Sma.up8 p.2 → s'.mem x = s.mem x) :
    R c K F (place f m.next a) { m with blk := fun b => if b = m.next then some ⟨n, fun _ => none⟩ else m.blk b, next := m.next + 1 } s' := by
  obtain ⟨bs, h1, h2, L, hp, h3⟩ := hR.held
  obtain ⟨e3, hcont⟩ := h _ h3
  have hnext : m.blk m.next = none := hR.wf.unused _ (Nat.le_refl _)
  have hpn := hR.wf.pos
  have hbs : ∀ b ∈ bs, b ≠ m.next := by
    rintro b hb rfl
    exact (h2 _).1 hb hnext
  refine ⟨⟨?_, ?_, ?_⟩, ?_, ⟨m.next :: bs, ?_, ?_, (a, bytes K n) :: L, ?_, e3⟩, ?_, ?_⟩
  · exact Nat.succ_pos _
  · intro b hb
    have hb : m.next + 1 ≤ b := hb
    show (if b = m.next then _ else _) = none
    rw [if_neg (by omega)]
    exact hR.wf.unused _ (by omega)
  · show (if 0 = m.next then _ else _) = none
    rw [if_neg (by omega)]
    exact hR.wf.null
  · intro b
    unfold place
    by_cases hb : b = m.next
    · rw [if_pos hb]; omega
    · rw [if_neg hb]; exact hR.zero b
  · exact List.nodup_cons.2 ⟨fun h => hbs _ h rfl, h1⟩
  · intro b
    show _ ↔ (if b = m.next then _ else _) ≠ none
    by_cases hb : b = m.next
    · subst hb; simp
    · rw [if_neg hb, ← h2]; simp [hb]
  · have e : (bs.map fun b => (f b, blkBytes K m b)) = bs.map fun b => (place f m.next a b,
        blkBytes K { m with blk := fun b => if b = m.next then some ⟨n, fun _ => none⟩ else m.blk b,
                            next := m.next + 1 } b) := by
      apply List.map_congr_left
      intro b hb
      unfold place blkBytes
      simp only [if_neg (hbs b hb)]
    rw [List.map_cons, ← e]
    have e' : (place f m.next a m.next, blkBytes K { m with
        blk := fun b => if b = m.next then some ⟨n, fun _ => none⟩ else m.blk b,
        next := m.next + 1 } m.next) = (a, bytes K n) := by
      unfold place blkBytes
      simp only [if_true]
    rw [e']
    exact hp.cons _
  · intro p hm x hx hx'
    rw [← hR.kept p hm x hx hx']
    exact hcont p (hp.mem_iff.2 (List.mem_append_right _ hm)) x hx hx'
  · intro b k i x hk hi hx j hj
    have hk : (if b = m.next then some ⟨n, fun _ => none⟩ else m.blk b) = some k := hk
    by_cases hb : b = m.next
    · rw [if_pos hb] at hk; cases hk; cases hx
    · rw [if_neg hb] at hk
      unfold place
      rw [if_neg hb]
      rw [← hR.cells b k i x hk hi hx j hj]
      have hs := mul_slot (w := K.size) hi
      obtain ⟨i1, _, i3, _⟩ := hR.inPool hc hk
      refine byteAt_congr i1 i3 (l := K.size * k.len) (by omega) (fun y hy hy' => ?_)
      refine hcont (f b, bytes K k.len) ?_ y hy (by simp only [up8_bytes]; exact hy')
      exact hp.mem_iff.2 (List.mem_append_left _ (List.mem_map.2
        ⟨b, (h2 b).2 (by rw [hk]; simp), by simp [blkBytes, hk]⟩))

theorem alloc_sim (hc : Sma.Legal c) (hR : R c K F f m s) {n : Nat} (hn : n ≠ 0) (hfit : Fit K n) :
    Sim c K F (NoRoom c s (bytes K n)) f m s (Vec.alloc n) ((poolOps .port c K).alloc n) PtrR := by
  intro b m' hr
  cases hr
  have hpos := bytes_pos (K := K) hn
  have hlt : bytes K n + 8 < 2 ^ 31 := by unfold bytes; unfold Fit at hfit; omega
  have halloc : (poolOps .port c K).alloc n = Sma.portAlloc c (bytes K n) := by
    show Sma.portAlloc c _ = _
    rw [byteCount_fit hfit]
  rw [halloc]
  obtain ⟨_, _, _, _, _, h3⟩ := hR.held
  obtain ⟨t, ht, _⟩ := Sma.sma_merge hc h3
  obtain ⟨g1, g2⟩ := Sma.sma_port_alloc_partial hc h3 hpos hlt ht
  by_cases hroom : ∃ b, Sma.FreeBlock c t b ∧ Sma.up8 (bytes K n) ≤ b.2
  · obtain ⟨a, s', e1, e2, _⟩ := g1 hroom
    have hpn := hR.wf.pos
    refine Or.inr ⟨a, s', place f m.next a, e1, ⟨?_, Nat.le_succ _⟩, hR.grow hc e2 (fun live hl => ?_), ?_⟩
    · intro b hb
      unfold place
      rw [if_neg (by omega)]
    · obtain ⟨k1, _⟩ := Sma.sma_port_alloc_partial hc hl hpos hlt ht
      obtain ⟨a', s'', k2, _, k3, _⟩ := k1 hroom
      obtain ⟨rfl, rfl⟩ := e1.det k2
      exact ⟨k3, portAlloc_contents hc hl hpos hlt e1⟩
    · refine ⟨by unfold place; rw [if_pos rfl], Nat.lt_succ_self _, by omega⟩
  · exact Or.inl ⟨⟨t, ht, hroom⟩, g2 hroom⟩

theorem alloc_faults (hc : Sma.Legal c) (hR : R c K F f m s) {n : Nat} (hn : n ≠ 0) (hfit : Fit K n)
    (h : NoRoom c s (bytes K n)) : Faults ((poolOps .port c K).alloc n) s .crash := by
  have hpos := bytes_pos (K := K) hn
  have hlt : bytes K n + 8 < 2 ^ 31 := by unfold bytes; unfold Fit at hfit; omega
  show Faults (Sma.portAlloc c _) s .crash
  rw [byteCount_fit hfit]
  obtain ⟨_, _, _, _, _, h3⟩ := hR.held
  obtain ⟨t, ht, hno⟩ := h
  exact (Sma.sma_port_alloc_partial hc h3 hpos hlt ht).2 hno

theorem map_erase_inj {β δ : Type} [DecidableEq β] [BEq δ] [LawfulBEq δ] (g : β → δ) (l : List β) (b : β)
    (h : ∀ x ∈ l, g x = g b → x = b) : (l.map g).erase (g b) = (l.erase b).map g := by
  induction l with
  | nil => rfl
  | cons a l ih =>
    by_cases ha : a = b
    · subst ha; simp
    · have : g a ≠ g b := fun e => ha (h a List.mem_cons_self e)
      rw [List.map_cons, List.erase_cons_tail (by simpa using this), List.erase_cons_tail (by simpa using ha),
        List.map_cons, ih (fun x hx => h x (List.mem_cons_of_mem _ hx))]

/-- Where the port releases a block, the allocator does. -/
theorem giveBlock_ok {a : Nat} {n : Int} {s s' : Sma.St} (h : Returns (Sma.portDealloc c a n) s () s') :
    Returns (Sma.giveBlock md c a n) s () s' := by
  cases md with
  | port => exact h
  | direct =>
    obtain ⟨r, s1, r1, r2⟩ := returns_bind h
    obtain ⟨_, rfl⟩ := returns_check r2
    exact (bind_returns r1).trans rfl

/-- What `dealloc_sim` says, with the block identified. -/
theorem dealloc_core (hc : Sma.Legal c) (hR : R c K F f m s) {b n : Nat} {m' : Mem α}
    (hr : Returns (Vec.dealloc b n) m () m') :
    ∃ s' t, Returns ((poolOps md c K).dealloc (f b) n) s () s' ∧ R c K F f m' s' ∧
      Returns (Sma.portDealloc c (f b) (bytes K n)) s () s' ∧ Sma.Reach c ⟨s, t⟩ ∧ (f b, bytes K n) ∈ t := by
  unfold Returns Vec.dealloc at hr
  split at hr
  · cases hr
  rename_i k hk
  by_cases hlen : k.len = n
  rotate_left
  · rw [if_neg hlen] at hr; cases hr
  rw [if_pos hlen] at hr
  cases hr
  subst hlen
  obtain ⟨i1, i2, _, hk0⟩ := hR.inPool hc hk
  have hM := hc.Mint
  have hfit : Fit K k.len := by unfold Fit; omega
  have hde : (poolOps md c K).dealloc (f b) k.len = Sma.giveBlock md c (f b) (bytes K k.len) := by
    show Sma.giveBlock md c _ _ = _
    rw [byteCount_fit hfit]
  rw [hde]
  obtain ⟨bs, h1, h2, L, hp, h3⟩ := hR.held
  have hbs : b ∈ bs := (h2 b).2 (by rw [hk]; simp)
  have hown : (f b, bytes K k.len) ∈ bs.map fun b => (f b, blkBytes K m b) :=
    List.mem_map.2 ⟨b, hbs, by simp [blkBytes, hk]⟩
  have hmem : (f b, bytes K k.len) ∈ L := hp.mem_iff.2 (List.mem_append_left _ hown)
  obtain ⟨s', e1, e2, _⟩ := Sma.sma_port_dealloc hc h3 hmem
  have hcont := portDealloc_contents hc h3 hmem e1
  have her : (bs.map fun b => (f b, blkBytes K m b)).erase (f b, bytes K k.len) =
      (bs.erase b).map fun b => (f b, blkBytes K m b) := by
    have : (f b, bytes K k.len) = (fun b => (f b, blkBytes K m b)) b := by simp [blkBytes, hk]
    rw [this]
    refine map_erase_inj (fun b => (f b, blkBytes K m b)) bs b ?_
    intro x hx he
    simp only [Prod.mk.injEq] at he
    by_cases hxb : x = b
    · exact hxb
    · exfalso
      rcases hkx : m.blk x with _ | kx
      · exact (h2 x).1 hx hkx
      · have hd := hR.disj hc hkx hk hxb
        obtain ⟨_, _, _, hkx0⟩ := hR.inPool hc hkx
        have p1 := Nat.mul_pos K.pos (Nat.pos_of_ne_zero hkx0)
        have p2 := Nat.mul_pos K.pos (Nat.pos_of_ne_zero hk0)
        unfold Sma.Disj at hd
        simp only at hd
        omega
  have hp' : (L.erase (f b, bytes K k.len)).Perm
      (((bs.erase b).map fun b => (f b, blkBytes K m b)) ++ F.live) := by
    rw [← her, ← List.erase_append_left _ hown]
    exact hp.erase _
  have hb0 : b ≠ 0 := by rintro rfl; rw [hR.wf.null] at hk; cases hk
  have hmemE : ∀ x, x ∈ bs.erase b ↔ x ≠ b ∧ x ∈ bs := fun x => h1.mem_erase_iff
  refine ⟨s', _, giveBlock_ok e1,
    ⟨⟨hR.wf.pos, ?_, ?_⟩, hR.zero, ⟨bs.erase b, h1.erase b, ?_, _, ?_, e2⟩, ?_, ?_⟩, e1, h3, hmem⟩
  · intro x hx
    show (if x = b then none else m.blk x) = none
    split
    · rfl
    · exact hR.wf.unused x hx
  · show (if 0 = b then none else m.blk 0) = none
    split
    · rfl
    · exact hR.wf.null
  · intro x
    show _ ↔ (if x = b then none else m.blk x) ≠ none
    rw [hmemE, h2]
    by_cases hx : x = b
    · simp [hx]
    · simp [hx]
  · have e : ((bs.erase b).map fun b => (f b, blkBytes K m b)) = (bs.erase b).map fun x => (f x,
        blkBytes K { m with blk := fun x => if x = b then none else m.blk x, lost := m.lost + k.live } x) := by
      apply List.map_congr_left
      intro x hx
      unfold blkBytes
      simp only [if_neg ((hmemE x).1 hx).1]
    rw [← e]
    exact hp'
  · intro p hm x hx hx'
    rw [← hR.kept p hm x hx hx']
    exact hcont p (hp'.mem_iff.2 (List.mem_append_right _ hm)) x hx hx'
  · intro x kx i y hkx hi hy j hj
    have hkx : (if x = b then none else m.blk x) = some kx := hkx
    by_cases hx : x = b
    · rw [if_pos hx] at hkx; cases hkx
    · rw [if_neg hx] at hkx
      rw [← hR.cells x kx i y hkx hi hy j hj]
      have hs := mul_slot (w := K.size) hi
      obtain ⟨i1, _, i3, _⟩ := hR.inPool hc hkx
      refine byteAt_congr i1 i3 (l := K.size * kx.len) (by omega) (fun z hz hz' => ?_)
      refine hcont (f x, bytes K kx.len) ?_ z hz (by simp only [up8_bytes]; exact hz')
      exact hp'.mem_iff.2 (List.mem_append_left _ (List.mem_map.2
        ⟨x, (hmemE x).2 ⟨hx, (h2 x).2 (by rw [hkx]; simp)⟩, by simp [blkBytes, hkx]⟩))

theorem dealloc_sim (hc : Sma.Legal c) (hR : R c K F f m s) (b n : Nat) :
    Sim c K F P f m s (Vec.dealloc b n) ((poolOps md c K).dealloc (f b) n) Triv := by
  intro a m' hr
  obtain ⟨s', _, e1, e2, _⟩ := dealloc_core (md := md) hc hR hr
  have hn : m'.next = m.next := by
    unfold Returns Vec.dealloc at hr
    split at hr
    · cases hr
    · split at hr
      · cases hr; rfl
      · cases hr
  exact Or.inr ⟨(), s', f, e1, ⟨fun _ _ => rfl, by omega⟩, e2, trivial⟩

/-! ### The functions of `Vector` -/

/-- The same object with its buffer in the pool. -/
def vmap (f : Nat → Nat) (v : Vec) : Vec := { v with c := f v.c }

/-- The relation between vector objects. -/
def VR (f : Nat → Nat) (m : Mem α) (v v' : Vec) : Prop := v' = vmap f v ∧ v.c < m.next

theorem vmap_ext {f f' : Nat → Nat} {m m' : Mem α} (h : Ext f m f' m') {v : Vec} (hv : v.c < m.next) :
    vmap f' v = vmap f v := by unfold vmap; rw [h.same _ hv]

/-- The referenced object is in a block that exists. -/
def ArgOld (m : Mem α) : Arg α → Prop
  | .val _ => True
  | .ref b _ => b < m.next

theorem argMap_ext {f f' : Nat → Nat} {m m' : Mem α} (h : Ext f m f' m') {e : Arg α} (he : ArgOld m e) :
    argMap f' e = argMap f e := by
  cases e with
  | val x => rfl
  | ref b i =>
    show Arg.ref (f' b) i = Arg.ref (f b) i
    rw [h.same _ he]

/-- Running out of memory in a request for `n` objects. -/
def Short (c : Sma.Cfg) (K : Elem α) (s : Sma.St) (n : Nat) : Prop := n ≠ 0 ∧ NoRoom c s (bytes K n)

theorem moveLoop_sim (hc : Sma.Legal c) (hR : R c K F f m s) (v : Vec) (hv : v.c < m.next)
    (d n k : Nat) (hd : d < m.next) :
    Sim c K F P f m s
      (forRange k 0 () fun i _ => do
        Prog.when (i < n) (Vec.construct d i (.ref v.c i))
        Vec.destroy K.triv v.c i)
      (forRange k 0 () fun i _ => do
        Prog.when (i < n) ((poolOps md c K).construct (f d) i (.ref (f v.c) i))
        (poolOps md c K).destroy (f v.c) i) Triv := by
  refine Sim.forRange _ _ hR ?_
  intro i f' m' s' _ _ he hr
  refine Sim.bind (A := Triv) ?_ ?_
  · refine Sim.when hr Iff.rfl (fun _ => ?_)
    have := construct_sim (md := md) (P := P) hc hr d i (.ref v.c i)
    rwa [argMap, he.same _ hv, he.same _ hd] at this
  · intro f2 m2 s2 _ _ he2 hr2 _ _
    have := destroy_sim (md := md) (P := P) hc hr2 v.c i
    rwa [(he.trans he2).same _ hv] at this

theorem resize_sim (hc : Sma.Legal c) (hR : R c K F f m s) (v : Vec) (hv : v.c < m.next)
    (n : Nat) (hfit : Fit K n) :
    Sim c K F (Short c K s n) f m s (Vec.resize K.triv v n) (resize (poolOps .port c K) (vmap f v) n) VR := by
  unfold Vec.resize Vec.resizeWith resize
  refine Sim.bind (A := fun f' m' d d' => d' = f' d ∧ d < m'.next) ?_ ?_
  · by_cases hn : n = 0
    · rw [if_pos hn, if_pos hn]
      exact Sim.pure hR ⟨((hR.zero 0).2 rfl).symm, hR.wf.pos⟩
    · rw [if_neg hn, if_neg hn]
      exact (alloc_sim hc hR hn hfit).mono (fun h => ⟨hn, h⟩) (fun _ _ _ _ _ h => ⟨h.1, h.2.1⟩)
  · rintro f1 m1 s1 d _ he hr ⟨rfl, hd⟩ _
    have hv1 : v.c < m1.next := Nat.lt_of_lt_of_le hv he.next
    rw [← vmap_ext he hv]
    refine Sim.bind (A := Triv) ?_ ?_
    · refine Sim.when hr (not_congr (hr.zero v.c)).symm (fun _ => ?_)
      refine Sim.bind (A := Triv) (Sim.check hr id) ?_
      intro f2 m2 s2 _ _ he2 hr2 _ _
      have hv2 := Nat.lt_of_lt_of_le hv1 he2.next
      have hd2 := Nat.lt_of_lt_of_le hd he2.next
      rw [← vmap_ext he2 hv1, ← he2.same d hd]
      refine Sim.bind (A := Triv) (moveLoop_sim hc hr2 v hv2 d n v.sz hd2) ?_
      intro f3 m3 s3 _ _ he3 hr3 _ _
      rw [← vmap_ext he3 hv2]
      exact dealloc_sim hc hr3 v.c v.cap
    · intro f2 m2 s2 _ _ he2 hr2 _ _
      rw [← he2.same d hd]
      exact Sim.pure hr2 ⟨rfl, Nat.lt_of_lt_of_le hd he2.next⟩

theorem fill_sim (hc : Sma.Legal c) (hR : R c K F f m s) (d k lo : Nat) (e : Arg α) (hd : d < m.next)
    (he : ArgOld m e) :
    Sim c K F P f m s (forRange k lo () fun i _ => Vec.construct d i e)
      (forRange k lo () fun i _ => (poolOps md c K).construct (f d) i (argMap f e)) Triv := by
  refine Sim.forRange _ _ hR ?_
  intro i f' m' s' _ _ h hr
  have := construct_sim (md := md) (P := P) hc hr d i e
  rwa [argMap_ext h he, h.same _ hd] at this

theorem ArgOld.mono {m m' : Mem α} {e : Arg α} (h : ArgOld m e) (hn : m.next ≤ m'.next) : ArgOld m' e := by
  cases e with
  | val x => trivial
  | ref b i => exact Nat.lt_of_lt_of_le h hn

theorem resizeFill_sim (hc : Sma.Legal c) (hR : R c K F f m s) (v : Vec) (hv : v.c < m.next)
    (n : Nat) (hfit : Fit K n) (e : Arg α) (hold : ArgOld m e) :
    Sim c K F (Short c K s n) f m s (Vec.resizeFill K.triv v n e)
      (resizeFill (poolOps .port c K) (vmap f v) n (argMap f e)) VR := by
  unfold Vec.resizeFill Vec.resizeFillWith resizeFill
  by_cases hn : n = 0
  · rw [if_pos hn, if_pos hn]
    subst hn
    exact resize_sim hc hR v hv 0 hfit
  rw [if_neg hn, if_neg hn]
  refine Sim.bind (A := PtrR) ((alloc_sim hc hR hn hfit).mono (fun h => ⟨hn, h⟩) (fun _ _ _ _ _ h => h)) ?_
  rintro f1 m1 s1 d _ he hr ⟨rfl, hd, _⟩ _
  have hv1 : v.c < m1.next := Nat.lt_of_lt_of_le hv he.next
  have ho1 := hold.mono he.next
  rw [← vmap_ext he hv, ← argMap_ext he hold]
  refine Sim.bind (A := Triv) ?_ ?_
  · refine Sim.when hr (not_congr (hr.zero v.c)).symm (fun _ => ?_)
    refine Sim.bind (A := Triv) (moveLoop_sim hc hr v hv1 d n v.sz hd) ?_
    intro f3 m3 s3 _ _ he3 hr3 _ _
    rw [← vmap_ext he3 hv1]
    exact dealloc_sim hc hr3 v.c v.cap
  · intro f2 m2 s2 _ _ he2 hr2 _ _
    have hd2 := Nat.lt_of_lt_of_le hd he2.next
    have ho2 := ho1.mono he2.next
    rw [← he2.same d hd, ← argMap_ext he2 ho1]
    refine Sim.bind (A := Triv) (fill_sim hc hr2 d (n - v.sz) v.sz e hd2 ho2) ?_
    intro f3 m3 s3 _ _ he3 hr3 _ _
    rw [← he3.same d hd2]
    exact Sim.pure hr3 ⟨rfl, Nat.lt_of_lt_of_le hd2 he3.next⟩

theorem vmap_empty (hR : R c K F f m s) : vmap f Vec.empty = Vec.empty := by
  unfold vmap Vec.empty
  simp only [(hR.zero 0).2 rfl]

theorem ctorFill_sim (hc : Sma.Legal c) (hR : R c K F f m s) (n : Nat) (hfit : Fit K n)
    (e : Arg α) (hold : ArgOld m e) :
    Sim c K F (Short c K s n) f m s (Vec.ctorFill K.triv n e) (ctorFill (poolOps .port c K) n (argMap f e)) VR := by
  unfold Vec.ctorFill Vec.ctorFillWith ctorFill
  intro a m' hr
  obtain ⟨_, u, r1, r2⟩ := returns_bind hr
  obtain ⟨hn, rfl⟩ := returns_check r1
  rw [dassert_pos hn, pure_bind]
  revert r2
  revert a m'
  suffices h : Sim c K F (Short c K s n) f u s _ _ VR by intro a m' _ r2; exact h a m' r2
  refine Sim.bind (A := VR) ?_ ?_
  · have := resize_sim hc hR Vec.empty hR.wf.pos n hfit
    rwa [vmap_empty hR] at this
  · rintro f1 m1 s1 v _ he hr ⟨rfl, hv⟩ _
    rw [← argMap_ext he hold]
    refine Sim.bind (A := Triv) (fill_sim hc hr v.c n 0 e hv (hold.mono he.next)) ?_
    intro f2 m2 s2 _ _ he2 hr2 _ _
    rw [← vmap_ext he2 hv]
    exact Sim.pure hr2 ⟨rfl, Nat.lt_of_lt_of_le hv he2.next⟩

theorem clear_sim (hc : Sma.Legal c) (hR : R c K F f m s) (v : Vec) (hv : v.c < m.next) :
    Sim c K F P f m s (Vec.clear K.triv v) (clear (poolOps md c K) (vmap f v)) VR := by
  unfold Vec.clear clear
  refine Sim.bind (A := Triv) ?_ ?_
  · refine Sim.when hR (not_congr (hR.zero v.c)).symm (fun _ => ?_)
    refine Sim.bind (A := Triv) ?_ ?_
    · refine Sim.forRange _ _ hR ?_
      intro i f' m' s' _ _ he hr
      have := destroy_sim (md := md) (P := P) hc hr v.c i
      rwa [he.same _ hv] at this
    · intro f3 m3 s3 _ _ he3 hr3 _ _
      rw [← vmap_ext he3 hv]
      exact dealloc_sim hc hr3 v.c v.cap
  · intro f2 m2 s2 _ _ he2 hr2 _ _
    exact Sim.pure hr2 ⟨(vmap_empty hr2).symm, hr2.wf.pos⟩

theorem pushBack_sim (hc : Sma.Legal c) (hR : R c K F f m s) (v : Vec) (hv : v.c < m.next)
    (hfit : v.cap < v.sz + 1 → Fit K (max 2 (2 * v.sz))) (e : Arg α) (hold : ArgOld m e) :
    Sim c K F (v.cap < v.sz + 1 ∧ Short c K s (max 2 (2 * v.sz))) f m s (Vec.pushBack K.triv v e)
      (pushBack (poolOps .port c K) (vmap f v) (argMap f e)) VR := by
  unfold Vec.pushBack Vec.pushBackWith pushBack
  refine Sim.bind (A := VR) ?_ ?_
  · by_cases hfull : v.sz + 1 > v.cap
    · rw [if_pos hfull, if_pos (c := (vmap f v).sz + 1 > (vmap f v).cap) hfull]
      have hfit := hfit hfull
      by_cases h0 : v.sz ≠ 0
      · rw [if_pos h0, if_pos (c := (vmap f v).sz ≠ 0) h0]
        have e : max 2 (2 * v.sz) = 2 * v.sz := by omega
        rw [e] at hfit ⊢
        exact (resize_sim hc hR v hv _ hfit).mono (fun h => ⟨hfull, h⟩) (fun _ _ _ _ _ h => h)
      · rw [if_neg h0, if_neg (c := (vmap f v).sz ≠ 0) h0]
        have e : max 2 (2 * v.sz) = 2 := by omega
        rw [e] at hfit ⊢
        exact (resize_sim hc hR v hv _ hfit).mono (fun h => ⟨hfull, h⟩) (fun _ _ _ _ _ h => h)
    · rw [if_neg hfull, if_neg (c := (vmap f v).sz + 1 > (vmap f v).cap) hfull]
      exact Sim.pure hR ⟨rfl, hv⟩
  · rintro f1 m1 s1 u _ he hr ⟨rfl, hu⟩ _
    rw [← argMap_ext he hold]
    refine Sim.bind (A := Triv) (construct_sim hc hr u.c u.sz e) ?_
    intro f2 m2 s2 _ _ he2 hr2 _ _
    rw [← vmap_ext he2 hu]
    exact Sim.pure hr2 ⟨rfl, Nat.lt_of_lt_of_le hu he2.next⟩

theorem popBack_sim (hc : Sma.Legal c) (hR : R c K F f m s) (v : Vec) (hv : v.c < m.next)
    (hfit : Fit K (v.cap / 2)) :
    Sim c K F (v.sz - 1 < v.cap / 3 ∧ ∃ s', Returns ((poolOps .port c K).destroy (f v.c) ((v.sz - 1 : Nat) : Int)) s () s' ∧
        Short c K s' (v.cap / 2)) f m s
      (Vec.popBack K.triv v) (popBack (poolOps .port c K) (vmap f v)) VR := by
  intro a m' hr
  obtain ⟨_, u, r1, r2⟩ := returns_bind hr
  obtain ⟨hn, rfl⟩ := returns_check r1
  obtain ⟨_, m1, r3, r4⟩ := returns_bind r2
  rcases destroy_sim (P := False) hc hR _ _ _ _ r3 with ⟨h, _⟩ | ⟨_, s1, f1, g1, g2, g3, _⟩
  · exact h.elim
  have hq : popBack (poolOps .port c K) (vmap f v) s =
      (if v.sz - 1 < v.cap / 3 then
          resize (poolOps .port c K) (vmap f { v with sz := v.sz - 1 }) (v.cap / 2)
        else Pure.pure (vmap f { v with sz := v.sz - 1 }) : Prog Sma.St Vec) s1 := by
    unfold popBack
    rw [dassert_pos (c := (vmap f v).sz > 0) hn, pure_bind]
    exact bind_returns g1
  unfold Faults Returns
  rw [hq]
  have hv1 : v.c < m1.next := Nat.lt_of_lt_of_le hv g2.next
  by_cases hs : v.sz - 1 < v.cap / 3
  · rw [if_pos hs] at r4 ⊢
    have := resize_sim hc g3 { v with sz := v.sz - 1 } hv1 _ hfit a m' r4
    rw [vmap_ext g2 (v := { v with sz := v.sz - 1 }) hv] at this
    rcases this with ⟨h1, h2⟩ | ⟨a', s', f', e1, e2, e3, e4⟩
    · exact Or.inl ⟨⟨hs, s1, g1, h1⟩, h2⟩
    · exact Or.inr ⟨a', s', f', e1, g2.trans e2, e3, e4⟩
  · rw [if_neg hs] at r4 ⊢
    obtain ⟨rfl, rfl⟩ := returns_pure r4
    refine Or.inr ⟨_, s1, f1, rfl, g2, g3, ?_, hv1⟩
    exact (vmap_ext g2 (v := { v with sz := v.sz - 1 }) hv).symm

theorem setIndex_sim (hc : Sma.Legal c) (hR : R c K F f m s) (v : Vec) (hv : v.c < m.next) (i : Int) (e : Arg α)
    (hold : ArgOld m e) :
    Sim c K F P f m s (Vec.setIndex v i e) (setIndex (poolOps md c K) (vmap f v) i (argMap f e)) Triv := by
  show Sim c K F P f m s (dassert _ >>= fun _ => Vec.assign _ _ _)
    (dassert _ >>= fun _ => (poolOps md c K).assign _ _ _) Triv
  refine Sim.bind (A := Triv) (Sim.check hR id) ?_
  rintro f1 m1 s1 _ _ he hr _ _
  have := assign_sim (md := md) (P := P) hc hr v.c (normIndex v i) e
  rwa [argMap_ext he hold, he.same _ hv] at this

theorem copyAssign_sim (hc : Sma.Legal c) (hR : R c K F f m s) (v u : Vec)
    (hv : v.c < m.next) (hu : u.c < m.next) (hfit : Fit K u.cap) :
    Sim c K F (u.cap ≠ 0) f m s (Vec.copyAssign K.triv v u)
      (copyAssign (poolOps .port c K) (vmap f v) (vmap f u)) VR := by
  unfold Vec.copyAssign Vec.copyAssignWith copyAssign
  refine Sim.bind (A := VR) (clear_sim hc hR v hv) ?_
  rintro f1 m1 s1 d _ he hr ⟨rfl, hd⟩ _
  refine Sim.bind (A := VR) ((resize_sim hc hr d hd u.cap hfit).mono (fun h => h.1) (fun _ _ _ _ _ h => h)) ?_
  rintro f2 m2 s2 d2 _ he2 hr2 ⟨rfl, hd2⟩ _
  have hu2 := Nat.lt_of_lt_of_le hu (he.trans he2).next
  rw [← vmap_ext (he.trans he2) hu]
  refine Sim.bind (A := Triv) ?_ ?_
  · refine Sim.forRange _ _ hr2 ?_
    intro i f' m' s' _ _ h hr'
    refine Sim.bind (A := Triv) ?_ ?_
    · have := destroy_sim (md := .port) (P := u.cap ≠ 0) hc hr' d2.c i
      rwa [h.same _ hd2] at this
    · intro f3 m3 s3 _ _ he3 hr3 _ _
      have := construct_sim (md := .port) (P := u.cap ≠ 0) hc hr3 d2.c i (.ref u.c i)
      rwa [argMap, (h.trans he3).same _ hu2, (h.trans he3).same _ hd2] at this
  · intro f3 m3 s3 _ _ he3 hr3 _ _
    refine Sim.pure hr3 ⟨?_, Nat.lt_of_lt_of_le hd2 he3.next⟩
    exact (vmap_ext he3 (v := { d2 with sz := u.sz }) hd2).symm

theorem moveAssign_sim (hc : Sma.Legal c) (hR : R c K F f m s) (v u : Vec)
    (hv : v.c < m.next) (hu : u.c < m.next) :
    Sim c K F P f m s (Vec.moveAssign K.triv v u) (moveAssign (poolOps md c K) (vmap f v) (vmap f u))
      (fun f' m' a a' => VR f' m' a.1 a'.1 ∧ VR f' m' a.2 a'.2) := by
  unfold Vec.moveAssign moveAssign
  refine Sim.bind (A := VR) (clear_sim hc hR v hv) ?_
  intro f1 m1 s1 _ _ he hr _ _
  refine Sim.pure hr ⟨⟨(vmap_ext he hu).symm, Nat.lt_of_lt_of_le hu he.next⟩, (vmap_empty hr).symm, hr.wf.pos⟩

/-! ### Observers -/

theorem index_pool (hc : Sma.Legal c) (hR : R c K F f m s) {v : Vec} {i : Int} {x : α} {m' : Mem α}
    (h : Returns (Vec.index v i) m x m') : Returns (index (poolOps md c K) (vmap f v) i) s x s := by
  obtain ⟨_, u, r1, r2⟩ := returns_bind h
  obtain ⟨hn, rfl⟩ := returns_check r1
  exact (bind_returns (check_ok s hn)).trans (load_ok hc hR r2)

theorem back_pool (hc : Sma.Legal c) (hR : R c K F f m s) {v : Vec} {x : α} {m' : Mem α}
    (h : Returns (Vec.back v) m x m') : Returns (back (poolOps md c K) (vmap f v)) s x s := by
  obtain ⟨_, u, r1, r2⟩ := returns_bind h
  obtain ⟨hn, rfl⟩ := returns_check r1
  exact (bind_returns (check_ok s hn)).trans (load_ok hc hR r2)

theorem front_pool (hc : Sma.Legal c) (hR : R c K F f m s) {v : Vec} {x : α} {m' : Mem α}
    (h : Returns (Vec.front v) m x m') : Returns (front (poolOps md c K) (vmap f v)) s x s :=
  load_ok hc hR h

theorem iterateLoop_pool (hc : Sma.Legal c) (hR : R c K F f m s) (b n lo : Nat) (acc l : List α)
    (m' : Mem α)
    (h : Returns (forRange n lo acc fun i acc => do
      let x ← Vec.read b i
      Pure.pure (acc ++ [x])) m l m') :
    Returns (forRange n lo acc fun i acc => do
      let x ← (poolOps md c K).read (f b) i
      Pure.pure (acc ++ [x])) s l s := by
  induction n generalizing lo acc with
  | zero => obtain ⟨rfl, _⟩ := returns_pure h; rfl
  | succ n ih =>
    unfold Prog.forRange at h ⊢
    obtain ⟨acc', m1, r1, r2⟩ := returns_bind h
    obtain ⟨x, m2, r3, r4⟩ := returns_bind r1
    obtain ⟨rfl, rfl⟩ := returns_pure r4
    have e := (returns_read r3).1
    subst e
    unfold Returns
    rw [bind_returns (a := acc ++ [x]) (s' := s)
      ((bind_returns (show Returns ((poolOps md c K).read (f b) lo) s x s from load_ok hc hR r3)).trans rfl)]
    exact ih (lo + 1) _ r2

theorem iterate_pool (hc : Sma.Legal c) (hR : R c K F f m s) {v : Vec} {l : List α} {m' : Mem α}
    (h : Returns (Vec.iterate v) m l m') : Returns (iterate (poolOps md c K) (vmap f v)) s l s :=
  iterateLoop_pool hc hR v.c v.sz 0 [] l m' h

end

end Verif.Pool
