import Verif.VectorWorld

/-! Helper lemmas: vectors over an allocator that may run out of memory. -/

namespace Verif

open Prog

variable {σ α β : Type}

/-- The program returns and the result satisfies `Q`, or it stops with the library's own null-pointer
check. -/
def wpc (p : Prog σ α) (Q : α → σ → Prop) (s : σ) : Prop := wp p Q s ∨ Faults p s .crash

theorem wpc_bind {p : Prog σ α} {f : α → Prog σ β} {Q : β → σ → Prop} {s : σ}
    (h : wpc p (fun a t => wpc (f a) Q t) s) : wpc (p >>= f) Q s := by
  rcases h with ⟨a, t, h1, h2 | h2⟩ | h
  · left; rw [wp_bind]; exact ⟨a, t, h1, h2⟩
  · exact Or.inr (faults_bind_of_wp ⟨a, t, h1, h2⟩)
  · exact Or.inr (bind_faults h)

theorem wpc_mono {p : Prog σ α} {Q R : α → σ → Prop} {s : σ} (h : wpc p Q s)
    (hq : ∀ a t, Q a t → R a t) : wpc p R s :=
  h.imp (fun h => wp_mono h hq) id

/-- Only the outcome in the given state matters. -/
theorem wpc_congr {p q : Prog σ α} {Q : α → σ → Prop} {s : σ} (e : p s = q s) (h : wpc q Q s) : wpc p Q s := by
  unfold wpc wp Faults at *
  rw [e]; exact h

end Verif

namespace Verif.Vec

open Prog

variable {α : Type}

/-- A vector object that failed to get its storage: it has a capacity but no buffer. -/
def Hollow (v : Vec) : Prop := v.c = 0 ∧ v.sz = 0

/-- `v` holds exactly the list `l`, possibly without the buffer its capacity promises. -/
def RepO (m : Mem α) (v : Vec) (l : List α) : Prop := Rep m v l ∨ (Hollow v ∧ l = [])

theorem RepO.size {m : Mem α} {v : Vec} {l : List α} (h : RepO m v l) : v.sz = l.length := by
  rcases h with h | ⟨h, rfl⟩
  · exact h.size
  · exact h.2

theorem RepO.null {m : Mem α} {v : Vec} {l : List α} (h : RepO m v l) (h0 : v.c = 0) : Hollow v ∧ l = [] := by
  rcases h with h | h
  · obtain ⟨rfl, h2⟩ := h.null h0
    exact ⟨⟨rfl, rfl⟩, h2⟩
  · exact h

theorem RepO.rep {m : Mem α} {v : Vec} {l : List α} (h : RepO m v l) (h0 : v.c ≠ 0) : Rep m v l := by
  rcases h with h | h
  · exact h
  · exact absurd h.1.1 h0

theorem RepO.ne {m : Mem α} {v : Vec} {l : List α} (h : RepO m v l) (h0 : l ≠ []) : Rep m v l :=
  h.rep fun hc => h0 (h.null hc).2

theorem RepO.fresh {m : Mem α} {v : Vec} {l : List α} (hw : m.WF) (h : RepO m v l) : v.c < m.next := by
  rcases h with h | h
  · exact h.fresh
  · rw [h.1.1]; exact hw.pos

theorem RepO.empty {m : Mem α} (hw : m.WF) : RepO m Vec.empty ([] : List α) := Or.inl (Rep.empty hw)

theorem RepO.mono {m m' : Mem α} {v : Vec} {l : List α} (h : RepO m v l)
    (hb : v.c ≠ 0 → m'.blk v.c = m.blk v.c) (hn : m.next ≤ m'.next) : RepO m' v l := by
  by_cases h0 : v.c = 0
  · exact Or.inr (h.null h0)
  · exact Or.inl ((h.rep h0).mono (hb h0) hn)

theorem RepO.le {m : Mem α} {v : Vec} {l : List α} (h : RepO m v l) : l.length ≤ v.cap := by
  by_cases h0 : v.c = 0
  · rw [(h.null h0).2]; simp
  · exact ((h.rep h0).buf h0).2.1

/-- A request that is not satisfied. -/
def Mem.denied (m : Mem α) : Mem α := { m with next := m.next + 1 }

theorem denied_wf {m : Mem α} (hw : m.WF) : m.denied.WF := by
  refine ⟨Nat.succ_pos _, fun b hb => hw.unused b ?_, hw.null⟩
  simp only [Mem.denied] at hb; omega

theorem allocOr_yes {g : Nat → Bool} {n : Nat} {m : Mem α} (h : g m.next = true) :
    allocOr g n m = alloc n m := by
  unfold allocOr; rw [if_pos h]

theorem allocOr_no {g : Nat → Bool} {n : Nat} {m : Mem α} (h : ¬ g m.next = true) :
    Returns (allocOr g n) m 0 m.denied := by
  unfold Returns allocOr; rw [if_neg h]; rfl

theorem construct_null {m : Mem α} {e : Arg α} : Faults (construct 0 ((0 : Nat) : Int) e) m .crash := by
  unfold construct
  refine bind_faults ?_
  simp [Faults, check]

theorem destroy_null {triv : Bool} {m : Mem α} : Faults (destroy triv 0 ((0 : Nat) : Int)) m .crash := by
  unfold destroy
  refine bind_faults ?_
  simp [Faults, check]

/-- Filling a buffer that does not exist. -/
theorem fill_null {m : Mem α} {e : Arg α} {n : Nat} (hn : n ≠ 0) :
    Faults (forRange n 0 () fun i _ => construct 0 (i : Int) e) m .crash := by
  rw [show n = (n - 1) + 1 by omega]
  unfold forRange
  exact bind_faults construct_null

/-- Moving elements to a buffer that does not exist. -/
theorem move_null {triv : Bool} {m : Mem α} {v : Vec} {n : Nat} (hs : v.sz ≠ 0) (hn : n ≠ 0) :
    Faults (forRange v.sz 0 () fun i _ => do
      when (i < n) (construct 0 (i : Int) (.ref v.c i))
      destroy triv v.c i) m .crash := by
  rw [show v.sz = (v.sz - 1) + 1 by omega]
  unfold forRange
  refine bind_faults (bind_faults ?_)
  unfold Prog.when
  rw [if_pos (by omega)]
  exact construct_null

/-- A buffer without elements can be released. -/
theorem dealloc_empty {m : Mem α} {v : Vec} (hr : Rep m v ([] : List α)) (h0 : v.c ≠ 0) (hw : m.WF) :
    ∃ m', Returns (dealloc v.c v.cap) m () m' ∧ m'.WF ∧ m'.next = m.next ∧ m'.lost = m.lost ∧
      m'.blk v.c = none ∧ ∀ b, b ≠ v.c → m'.blk b = m.blk b := by
  obtain ⟨_, _, f, hb, hf⟩ := hr.buf h0
  refine ⟨_, dealloc_ok hb rfl (fun i => by simp [hf]), ⟨hw.pos, ?_, ?_⟩, rfl, rfl, by simp, ?_⟩
  · intro b h; simp only; split
    · rfl
    · exact hw.unused b h
  · simp only; split
    · rfl
    · exact hw.null
  · intro b h; simp [h]

theorem resizeWith_hollow {al : Nat → Prog (Mem α) Nat} {triv : Bool} {v : Vec} {n : Nat} (h : Hollow v) :
    resizeWith al triv v n = resizeWith al triv Vec.empty n := by
  unfold resizeWith
  simp [h.1, h.2, Vec.empty, Prog.when]

/-- What `resize` does when the request is denied. -/
theorem resize_denied {g : Nat → Bool} {triv : Bool} {m : Mem α} {v : Vec} {l : List α} {n : Nat}
    (hw : m.WF) (hr : RepO m v l) (hn : n ≠ 0) (hg : ¬ g m.next = true) :
    wpc (resizeWith (allocOr g) triv v n) (fun v' m' => l = [] ∧ Hollow v' ∧ v'.cap = n ∧ Frame m m' v v' ∧ m'.WF) m := by
  unfold resizeWith
  rw [if_neg hn]
  refine wpc_bind (Or.inl ⟨_, _, allocOr_no hg, ?_⟩)
  by_cases h0 : v.c = 0
  · obtain ⟨h1, rfl⟩ := hr.null h0
    left
    simp only [h0, Prog.when, ne_eq, not_true_eq_false, if_false]
    rw [wp_bind, wp_pure, wp_pure]
    refine ⟨trivial, ⟨rfl, by simp [h1.2]⟩, rfl, ⟨fun _ _ _ => rfl, ?_, Or.inr (Or.inl rfl), Nat.le_succ _, rfl⟩, denied_wf hw⟩
    intro _ h; exact absurd h0 h
  · have hr := hr.rep h0
    obtain ⟨hc, _⟩ := hr.buf h0
    simp only [Prog.when, ne_eq, h0, not_false_eq_true, if_true]
    refine wpc_bind (wpc_bind (Or.inl ((wp_dassert _ _ _).2 ⟨hc, ?_⟩)))
    by_cases hl : l = []
    · subst hl
      have hs := hr.size
      simp only [List.length_nil] at hs
      have hr1 : Rep m.denied v ([] : List α) := hr.mono rfl (Nat.le_succ _)
      obtain ⟨m2, e1, e2, e3, e4, e5, e6⟩ := dealloc_empty hr1 h0 (denied_wf hw)
      rw [hs]
      left
      refine (wp_bind _ _ _ _).2 ⟨(), m.denied, rfl, (), m2, e1, Or.inl ((wp_pure _ _ _).2 ?_)⟩
      refine ⟨rfl, ⟨rfl, by simp⟩, rfl, ⟨?_, fun _ _ => e5, Or.inr (Or.inl rfl), by rw [e3]; exact Nat.le_succ _, e4⟩, e2⟩
      intro b hb _
      rw [e6 b hb]; rfl
    · refine Or.inr (bind_faults (move_null ?_ hn))
      rw [hr.size]
      exact fun h => hl (List.length_eq_zero_iff.1 h)

theorem resizeWith_granted {g : Nat → Bool} {triv : Bool} {m : Mem α} {v : Vec} {n : Nat}
    (h : n = 0 ∨ g m.next = true) : resizeWith (allocOr g) triv v n m = resize triv v n m := by
  unfold resize resizeWith
  by_cases hn : n = 0
  · simp only [hn, if_true]
  · simp only [hn, if_false]
    rw [Prog.bind_apply, Prog.bind_apply, allocOr_yes (h.resolve_left hn)]

theorem Frame.of_c {m m' : Mem α} {v u v' : Vec} (h : Frame m m' u v') (e : v.c = u.c) : Frame m m' v v' := by
  refine ⟨?_, ?_, ?_, h.next, h.lost⟩ <;> rw [e]
  · exact h.other
  · exact h.gone
  · exact h.new

theorem resizeWith_ok {g : Nat → Bool} {triv : Bool} {m : Mem α} {v : Vec} {l : List α} (hw : m.WF)
    (hr : RepO m v l) (n : Nat) :
    wpc (resizeWith (allocOr g) triv v n) (fun v' m' => RepO m' v' (l.take n) ∧ v'.cap = n ∧ Frame m m' v v' ∧ m'.WF) m := by
  by_cases hg : n = 0 ∨ g m.next = true
  · rcases hr with hr | ⟨hh, rfl⟩
    · refine wpc_congr (resizeWith_granted hg) (Or.inl (wp_mono (resize_ok hw hr n) ?_))
      rintro v' m' ⟨h1, h2, h3, h4, _⟩
      exact ⟨Or.inl h1, h2, h3, h4⟩
    · rw [resizeWith_hollow hh]
      refine wpc_congr (resizeWith_granted hg) (Or.inl (wp_mono (resize_ok hw (Rep.empty hw) n) ?_))
      rintro v' m' ⟨h1, h2, h3, h4, _⟩
      exact ⟨Or.inl h1, h2, h3.of_c hh.1, h4⟩
  · rw [not_or] at hg
    refine wpc_mono (resize_denied hw hr hg.1 hg.2) ?_
    rintro v' m' ⟨rfl, h2, h3, h4, h5⟩
    exact ⟨Or.inr ⟨h2, by simp⟩, h3, h4, h5⟩

theorem construct_endO {m : Mem α} {v : Vec} {l : List α} {x : α} {e : Arg α} (hw : m.WF)
    (hr : RepO m v l) (hx : Returns e.get m x m) (hlt : v.sz < v.cap) :
    wpc (construct v.c v.sz e) (fun _ m' => RepO m' { v with sz := v.sz + 1 } (l ++ [x]) ∧
      (∀ b, b ≠ v.c → m'.blk b = m.blk b) ∧ m'.next = m.next ∧ m'.lost = m.lost ∧ m'.WF) m := by
  by_cases h0 : v.c = 0
  · obtain ⟨h1, rfl⟩ := hr.null h0
    right
    rw [h0, h1.2]
    exact construct_null
  · left
    refine wp_mono (construct_end hw (hr.rep h0) hx hlt) ?_
    rintro _ m' ⟨g1, g2⟩
    exact ⟨Or.inl g1, g2⟩

theorem pushBackWith_ok {g : Nat → Bool} {triv : Bool} {m : Mem α} {v : Vec} {l : List α} {x : α} {e : Arg α}
    (hw : m.WF) (hr : RepO m v l) (hx : Returns e.get m x m)
    (hx' : l.length = v.cap → e = .val x ∨ ∃ b i, e = .ref b i ∧ b ≠ v.c ∧ b < m.next) :
    wpc (pushBackWith (allocOr g) triv v e) (fun v' m' => RepO m' v' (l ++ [x]) ∧
      v'.cap = growCap l.length v.cap ∧ Frame m m' v v' ∧ m'.WF) m := by
  unfold pushBackWith
  have hsz := hr.size
  have hle := hr.le
  have hroom : wpc (if v.sz + 1 > v.cap then
      (if v.sz ≠ 0 then resizeWith (allocOr g) triv v (2 * v.sz) else resizeWith (allocOr g) triv v 2) else pure v)
      (fun v1 m1 => RepO m1 v1 l ∧ v1.cap = growCap l.length v.cap ∧ Frame m m1 v v1 ∧ m1.WF ∧
        v1.sz < v1.cap ∧ Returns e.get m1 x m1) m := by
    by_cases hfull : v.sz + 1 > v.cap
    · rw [if_pos hfull]
      have hfull' : l.length = v.cap := by omega
      have key : ∀ n, l.length < n → n = growCap l.length v.cap →
        wpc (resizeWith (allocOr g) triv v n) (fun v1 m1 => RepO m1 v1 l ∧ v1.cap = growCap l.length v.cap ∧
          Frame m m1 v v1 ∧ m1.WF ∧ v1.sz < v1.cap ∧ Returns e.get m1 x m1) m := by
        intro n hn hg
        refine wpc_mono (resizeWith_ok hw hr n) ?_
        rintro v1 m1 ⟨h1, h2, h3, h4⟩
        have htake : l.take n = l := List.take_of_length_le (by omega)
        rw [htake] at h1
        exact ⟨h1, by omega, h3, h4, by rw [h1.size]; omega, get_frame hx (hx' hfull') h3⟩
      by_cases h0 : v.sz ≠ 0
      · rw [if_pos h0]
        exact key _ (by omega) (by unfold growCap; rw [if_neg (by omega), if_neg (by omega)]; omega)
      · rw [if_neg h0]
        exact key _ (by omega) (by unfold growCap; rw [if_neg (by omega), if_pos (by omega)])
    · rw [if_neg hfull]
      left
      rw [wp_pure]
      refine ⟨hr, ?_, Frame.refl m v, hw, by omega, hx⟩
      unfold growCap; rw [if_pos (by omega)]
  refine wpc_bind (wpc_mono hroom ?_)
  rintro v1 m1 ⟨h1, h2, h3, h4, h5, h6⟩
  refine wpc_bind (wpc_mono (construct_endO h4 h1 h6 h5) ?_)
  rintro _ m2 ⟨g1, g2, g3, g4, g5⟩
  left
  rw [wp_pure]
  refine ⟨g1, h2, ⟨?_, ?_, h3.new, by rw [g3]; exact h3.next, by rw [g4]; exact h3.lost⟩, g5⟩
  · intro b hb1 hb2
    rw [g2 b hb2]; exact h3.other b hb1 hb2
  · intro hb1 hb2
    rw [g2 v.c (Ne.symm hb1)]; exact h3.gone hb1 hb2

theorem popBackWith_ok {g : Nat → Bool} {triv : Bool} {m : Mem α} {v : Vec} {l : List α} (hw : m.WF)
    (hr : RepO m v l) (hne : l ≠ []) :
    wpc (popBackWith (allocOr g) triv v) (fun v' m' => RepO m' v' l.dropLast ∧
      v'.cap = shrinkCap l.length v.cap ∧ Frame m m' v v' ∧ m'.WF) m := by
  have hr := hr.ne hne
  have hlen : 0 < l.length := List.length_pos_iff.2 hne
  have hv0 : v.c ≠ 0 := fun h => hne (hr.null h).2
  obtain ⟨hcap0, hle, f, hblk, hf⟩ := hr.buf hv0
  have hsz := hr.size
  unfold popBackWith
  refine wpc_bind (Or.inl ((wp_dassert _ _ _).2 ⟨by omega, ?_⟩))
  simp only
  have hd := destroy_ok (triv := triv) (i := v.sz - 1) hv0 hblk (show v.sz - 1 < v.cap by omega)
    (Or.inr (by simp only [hf, hsz]; rw [List.getElem?_eq_getElem (by omega)]; rfl))
  refine wpc_bind (Or.inl ((wp_of_returns hd _).2 ?_))
  have hr1 : Rep (m.put v.c ⟨v.cap, f⟩ (v.sz - 1) none) { v with sz := v.sz - 1 } l.dropLast := by
    refine ⟨fun h => absurd h hv0, fun _ => ⟨hcap0, ?_, ?_⟩, ?_, hr.fresh⟩
    · simp; omega
    · refine ⟨(fun y => if y = v.sz - 1 then none else f y), by simp, ?_⟩
      intro i
      simp only [hf, hsz, List.getElem?_dropLast]
      grind
    · simp [hsz]
  have hw1 : (m.put v.c ⟨v.cap, f⟩ (v.sz - 1) none).WF := by
    refine ⟨hw.pos, ?_, ?_⟩
    · intro b hb
      simp only [put_next] at hb
      have := hr.fresh
      simp only [put_blk, show b ≠ v.c by omega, if_false]; exact hw.unused b hb
    · simp only [put_blk, Ne.symm hv0, if_false]; exact hw.null
  by_cases hs : v.sz - 1 < v.cap / 3
  · rw [if_pos hs]
    refine wpc_mono (resizeWith_ok hw1 (Or.inl hr1) _) ?_
    rintro v2 m2 ⟨h1, h2, h3, h4⟩
    have htake : l.dropLast.take (v.cap / 2) = l.dropLast :=
      List.take_of_length_le (by simp; omega)
    rw [htake] at h1
    refine ⟨h1, ?_, ⟨?_, ?_, h3.new, h3.next, h3.lost⟩, h4⟩
    · unfold shrinkCap; rw [h2, if_pos (by omega)]
    · intro b hb1 hb2
      rw [h3.other b hb1 hb2]; simp [hb1]
    · intro hb1 hb2; exact h3.gone hb1 hb2
  · rw [if_neg hs]
    left
    rw [wp_pure]
    refine ⟨Or.inl hr1, ?_, ⟨?_, fun h => absurd rfl h, Or.inl rfl, Nat.le_refl _, rfl⟩, hw1⟩
    · unfold shrinkCap; rw [if_neg (by omega)]
    · intro b hb1 _; simp [hb1]

theorem resizeFillWith_hollow {al : Nat → Prog (Mem α) Nat} {triv : Bool} {v : Vec} {n : Nat} {e : Arg α}
    (h : Hollow v) : resizeFillWith al triv v n e = resizeFillWith al triv Vec.empty n e := by
  unfold resizeFillWith
  rw [resizeWith_hollow h]
  simp [h.1, h.2, Vec.empty, Prog.when]

theorem resizeFillWith_granted {g : Nat → Bool} {triv : Bool} {m : Mem α} {v : Vec} {n : Nat} {e : Arg α}
    (h : n = 0 ∨ g m.next = true) :
    resizeFillWith (allocOr g) triv v n e m = resizeFill triv v n e m := by
  unfold resizeFill resizeFillWith
  by_cases hn : n = 0
  · simp only [hn, if_true]
    exact resizeWith_granted (Or.inl rfl)
  · simp only [hn, if_false]
    rw [Prog.bind_apply, Prog.bind_apply, allocOr_yes (h.resolve_left hn)]

/-- `resize(n, e)` stops when the request is denied. -/
theorem resizeFill_denied {g : Nat → Bool} {triv : Bool} {m : Mem α} {v : Vec} {l : List α} {n : Nat} {e : Arg α}
    (hw : m.WF) (hr : RepO m v l) (hn : n ≠ 0) (hg : ¬ g m.next = true) :
    Faults (resizeFillWith (allocOr g) triv v n e) m .crash := by
  unfold resizeFillWith
  rw [if_neg hn]
  refine faults_bind_of_wp ⟨_, _, allocOr_no hg, ?_⟩
  by_cases h0 : v.c = 0
  · obtain ⟨h1, rfl⟩ := hr.null h0
    simp only [h0, Prog.when, ne_eq, not_true_eq_false, if_false, pure_bind]
    refine bind_faults ?_
    rw [h1.2]
    exact fill_null (by omega)
  · have hr := hr.rep h0
    simp only [Prog.when, ne_eq, h0, not_false_eq_true, if_true]
    by_cases hl : l = []
    · subst hl
      have hs := hr.size
      simp only [List.length_nil] at hs
      have hr1 : Rep m.denied v ([] : List α) := hr.mono rfl (Nat.le_succ _)
      obtain ⟨m2, e1, e2, e3, e4, e5, e6⟩ := dealloc_empty hr1 h0 (denied_wf hw)
      rw [hs]
      refine faults_bind_of_wp ((wp_bind _ _ _ _).2 ⟨(), m.denied, rfl, (), m2, e1, bind_faults (fill_null (by omega))⟩)
    · refine bind_faults (bind_faults (move_null ?_ hn))
      rw [hr.size]
      exact fun h => hl (List.length_eq_zero_iff.1 h)

theorem resizeFillWith_ok {g : Nat → Bool} {triv : Bool} {m : Mem α} {v : Vec} {l : List α} (hw : m.WF)
    (hr : RepO m v l) (n : Nat) (x : α) :
    wpc (resizeFillWith (allocOr g) triv v n (.val x)) (fun v' m' =>
      RepO m' v' (l.take n ++ List.replicate (n - l.length) x) ∧ v'.cap = n ∧ Frame m m' v v' ∧ m'.WF) m := by
  by_cases hg : n = 0 ∨ g m.next = true
  · rcases hr with hr | ⟨hh, rfl⟩
    · refine wpc_congr (resizeFillWith_granted hg) (Or.inl (wp_mono (resizeFill_ok hw hr n x) ?_))
      rintro v' m' ⟨h1, h2, h3, h4⟩
      exact ⟨Or.inl h1, h2, h3, h4⟩
    · rw [resizeFillWith_hollow hh]
      refine wpc_congr (resizeFillWith_granted hg) (Or.inl (wp_mono (resizeFill_ok hw (Rep.empty hw) n x) ?_))
      rintro v' m' ⟨h1, h2, h3, h4⟩
      exact ⟨Or.inl h1, h2, h3.of_c hh.1, h4⟩
  · rw [not_or] at hg
    exact Or.inr (resizeFill_denied hw hr hg.1 hg.2)

theorem ctorFillWith_ok {g : Nat → Bool} {triv : Bool} {m : Mem α} (hw : m.WF) (n : Nat) (hn : n ≠ 0) (x : α) :
    wpc (ctorFillWith (allocOr g) triv n (.val x)) (fun v' m' =>
      RepO m' v' (List.replicate n x) ∧ v'.cap = n ∧ Frame m m' Vec.empty v' ∧ m'.WF) m := by
  by_cases hg : g m.next = true
  · have e : ctorFillWith (allocOr g) triv n (.val x) m = ctorFill triv n (.val x) m := by
      unfold ctorFill ctorFillWith
      have h1 : Returns (dassert (σ := Mem α) (n ≠ 0)) m () m := by simp [Returns, dassert, check, hn]
      rw [bind_returns h1, bind_returns h1, Prog.bind_apply, Prog.bind_apply, resizeWith_granted (Or.inr hg)]
      rfl
    refine wpc_congr e (Or.inl (wp_mono (ctorFill_ok hw n hn x) ?_))
    rintro v' m' ⟨h1, h2, h3, h4⟩
    exact ⟨Or.inl h1, h2, h3, h4⟩
  · right
    unfold ctorFillWith
    refine faults_bind_of_wp ((wp_dassert _ _ _).2 ⟨hn, ?_⟩)
    rcases resize_denied (triv := triv) hw (RepO.empty hw) hn hg with ⟨v', m', h1, _, h2, _⟩ | h
    · refine faults_bind_of_wp ⟨v', m', h1, bind_faults ?_⟩
      rw [h2.1]
      exact fill_null hn
    · exact bind_faults h

theorem clear_okO {triv : Bool} {m : Mem α} {v : Vec} {l : List α} (hw : m.WF) (hr : RepO m v l) :
    wp (clear triv v) (fun v' m' => v' = Vec.empty ∧ Frame m m' v Vec.empty ∧ m'.WF ∧ m'.next = m.next) m := by
  by_cases h0 : v.c = 0
  · unfold clear
    rw [wp_bind, wp_when]
    refine ⟨fun h => absurd h0 h, fun _ => ?_⟩
    rw [wp_pure]
    exact ⟨rfl, ⟨fun _ _ _ => rfl, fun _ h => absurd h0 h, Or.inr (Or.inl rfl), Nat.le_refl _, rfl⟩, hw, rfl⟩
  · exact clear_ok hw (hr.rep h0)

theorem copyAssignWith_ok {g : Nat → Bool} {triv : Bool} {m : Mem α} {v u : Vec} {k l : List α} (hw : m.WF)
    (hv : RepO m v k) (hu : RepO m u l) (hvu : v.c ≠ 0 → v.c ≠ u.c) (ht : triv = true ∨ l = []) :
    wpc (copyAssignWith (allocOr g) triv v u) (fun v' m' => RepO m' v' l ∧ v'.cap = u.cap ∧ Frame m m' v v' ∧ m'.WF) m := by
  obtain ⟨d, m1, c1, rfl, c2, c3, c4⟩ := clear_okO (triv := triv) hw hv
  by_cases hl : l = []
  · subst hl
    unfold copyAssignWith
    refine wpc_bind (Or.inl ⟨_, _, c1, ?_⟩)
    refine wpc_bind (wpc_mono (resizeWith_ok c3 (RepO.empty c3) u.cap) ?_)
    rintro d2 m2 ⟨h1, h2, h3, h4⟩
    left
    have hs := hu.size
    have hs2 := h1.size
    simp only [List.length_nil, List.take_nil] at hs hs2 h1
    simp only [hs]
    rw [wp_bind]
    refine ⟨(), m2, rfl, (wp_pure _ _ _).2 ⟨?_, h2, ?_, h4⟩⟩
    · rw [← hs2]; exact h1
    · exact Frame.trans hw c2 ⟨h3.other, h3.gone, h3.new, h3.next, h3.lost⟩ h4.null
  · have hu := hu.ne hl
    have hu0 : u.c ≠ 0 := fun h => hl (hu.null h).2
    obtain ⟨hc0, _⟩ := hu.buf hu0
    by_cases hg : g m.next = true
    · have hgr : ∀ w : Vec, copyAssignWith (allocOr g) triv v w m = copyAssign triv v w m := by
        intro w
        unfold copyAssign copyAssignWith
        rw [bind_returns c1, bind_returns c1, Prog.bind_apply, Prog.bind_apply,
          resizeWith_granted (Or.inr (by rw [c4]; exact hg))]
        rfl
      refine wpc_congr (hgr u) (Or.inl ?_)
      rcases hv with hv | ⟨hh, rfl⟩
      · refine wp_mono (copyAssign_ok hw hv hu hvu ht) ?_
        rintro v' m' ⟨h1, h2, h3, h4⟩
        exact ⟨Or.inl h1, h2, h3, h4⟩
      · have e : copyAssign triv v u m = copyAssign triv Vec.empty u m := by
          unfold copyAssign copyAssignWith
          have : clear triv v = (clear triv Vec.empty : Prog (Mem α) Vec) := by
            unfold clear; simp [hh.1, Vec.empty, Prog.when]
          rw [this]
        obtain ⟨v', m', e1, h1, h2, h3, h4⟩ := copyAssign_ok (v := Vec.empty) hw (Rep.empty hw) hu (fun h => absurd rfl h) ht
        exact ⟨v', m', e.trans e1, Or.inl h1, h2, h3.of_c hh.1, h4⟩
    · right
      unfold copyAssignWith
      refine faults_bind_of_wp ⟨_, _, c1, ?_⟩
      rcases resize_denied (triv := triv) c3 (RepO.empty c3) hc0 (by rw [c4]; exact hg) with ⟨v', m', h1, _, h2, _⟩ | h
      · refine faults_bind_of_wp ⟨v', m', h1, bind_faults ?_⟩
        simp only
        have hs := hu.size
        have hp : 0 < l.length := List.length_pos_iff.2 hl
        rw [show u.sz = (u.sz - 1) + 1 by omega]
        unfold forRange
        refine bind_faults (bind_faults ?_)
        rw [h2.1]
        exact destroy_null
      · exact bind_faults h

/-! ## The world -/

/-- The invariant tying a world of vector objects over a fallible allocator to its
specification. -/
structure WInvO (w : World α) (sw : SWorld α) : Prop where
  wf : w.mem.WF
  dead : ∀ k, sw k = none → w.obj k = none
  alive : ∀ k s, sw k = some s → ∃ v, w.obj k = some v ∧ RepO w.mem v s.data ∧ v.cap = s.cap
  sep : ∀ j k v u, j ≠ k → w.obj j = some v → w.obj k = some u → v.c ≠ 0 → v.c ≠ u.c
  owned : ∀ b, w.mem.blk b ≠ none → ∃ k v, w.obj k = some v ∧ v.c = b
  lost : w.mem.lost = 0

theorem WInvO.init : WInvO (World.init : World α) (fun _ => none) :=
  ⟨Mem.WF.init, fun _ _ => rfl, fun _ _ h => (by cases h), fun _ _ _ _ _ h => (by cases h),
    fun _ h => absurd rfl h, rfl⟩

theorem wpc_lift {β : Type} {p : Prog (Mem α) β} {Q : β → World α → Prop} {w : World α}
    (h : wpc p (fun a m => Q a { w with mem := m }) w.mem) : wpc (lift p) Q w := by
  rcases h with h | h
  · exact Or.inl ((wp_lift _ _ _).2 h)
  · exact Or.inr (faults_lift h)

/-- Replace one object. -/
theorem WInvO.update {w : World α} {sw : SWorld α} (h : WInvO w sw) {k : Nat} {v v' : Vec}
    {m' : Mem α} {l : List α} {cap : Nat}
    (hv : w.obj k = some v ∨ (w.obj k = none ∧ v = Vec.empty))
    (hr : RepO m' v' l) (hc : v'.cap = cap) (hf : Frame w.mem m' v v') (hw : m'.WF) :
    WInvO { mem := m', obj := fun x => if x = k then some v' else w.obj x }
      (sw.put k (some ⟨l, cap⟩)) := by
  have hsepv : ∀ j u, j ≠ k → w.obj j = some u → u.c ≠ 0 → u.c ≠ v.c ∧ u.c < w.mem.next := by
    intro j u hj hu h0
    constructor
    · rcases hv with hv | ⟨_, rfl⟩
      · exact h.sep j k u v hj hu hv h0
      · exact h0
    · rcases hs : sw j with _ | s
      · rw [h.dead j hs] at hu; cases hu
      · obtain ⟨u', h1, h2, _⟩ := h.alive j s hs
        rw [hu] at h1; cases h1; exact h2.fresh h.wf
  have hsepv' : ∀ j u, j ≠ k → w.obj j = some u → u.c ≠ 0 → u.c ≠ v'.c := by
    intro j u hj hu h0
    obtain ⟨h1, h2⟩ := hsepv j u hj hu h0
    rcases hf.new with h3 | h3 | h3 <;> omega
  refine ⟨hw, ?_, ?_, ?_, ?_, ?_⟩
  · intro j hj
    simp only [SWorld.put] at hj ⊢
    split at hj
    · cases hj
    · rename_i hjk; rw [if_neg hjk]; exact h.dead j hj
  · intro j s hs
    simp only [SWorld.put] at hs
    by_cases hjk : j = k
    · simp only [hjk, if_true] at hs ⊢
      cases hs
      exact ⟨v', rfl, hr, hc⟩
    · simp only [if_neg hjk] at hs ⊢
      obtain ⟨u, h1, h2, h3⟩ := h.alive j s hs
      refine ⟨u, h1, ?_, h3⟩
      exact h2.mono (fun h0 => hf.other _ (hsepv j u hjk h1 h0).1 (hsepv' j u hjk h1 h0)) hf.next
  · intro i j a b hij ha hb h0
    simp only at ha hb
    by_cases hi : i = k
    · rw [if_pos hi] at ha; cases ha
      have hj : j ≠ k := fun h => hij (hi.trans h.symm)
      rw [if_neg hj] at hb
      intro heq
      exact hsepv' j b hj hb (by rw [← heq]; exact h0) heq.symm
    · rw [if_neg hi] at ha
      by_cases hj : j = k
      · rw [if_pos hj] at hb; cases hb
        exact hsepv' i a hi ha h0
      · rw [if_neg hj] at hb
        exact h.sep i j a b hij ha hb h0
  · intro b hb
    simp only at hb ⊢
    by_cases h1 : b = v'.c
    · exact ⟨k, v', by simp, h1.symm⟩
    · by_cases h2 : b = v.c
      · exfalso
        apply hb
        subst h2
        by_cases h0 : v.c = 0
        · rw [h0]; exact hw.null
        · exact hf.gone (Ne.symm h1) h0
      · rw [hf.other b h2 h1] at hb
        obtain ⟨j, u, h3, h4⟩ := h.owned b hb
        by_cases hj : j = k
        · subst hj
          rcases hv with hv | ⟨hv, _⟩
          · rw [hv] at h3; cases h3; exact absurd h4.symm h2
          · rw [hv] at h3; cases h3
        · exact ⟨j, u, by simp [hj, h3], h4⟩
  · rw [hf.lost]; exact h.lost

/-- Drop one object whose buffer has been released. -/
theorem WInvO.drop {w : World α} {sw : SWorld α} (h : WInvO w sw) {k : Nat} {v : Vec}
    {m' : Mem α} (hv : w.obj k = some v) (hf : Frame w.mem m' v Vec.empty) (hw : m'.WF) :
    WInvO { mem := m', obj := fun x => if x = k then none else w.obj x } (sw.put k none) := by
  have h' := h.update (Or.inl hv) (RepO.empty hw) rfl hf hw
  refine ⟨hw, ?_, ?_, ?_, ?_, h'.lost⟩
  · intro j hj
    simp only [SWorld.put] at hj ⊢
    by_cases hjk : j = k
    · simp [hjk]
    · simp only [if_neg hjk] at hj ⊢; exact h.dead j hj
  · intro j s hs
    simp only [SWorld.put] at hs
    by_cases hjk : j = k
    · simp [hjk] at hs
    · have := h'.alive j s (by simpa [SWorld.put, hjk] using hs)
      simpa [hjk] using this
  · intro i j a b hij ha hb h0
    simp only at ha hb
    by_cases hi : i = k
    · simp [hi] at ha
    · by_cases hj : j = k
      · simp [hj] at hb
      · simp only [if_neg hi, if_neg hj] at ha hb
        exact h.sep i j a b hij ha hb h0
  · intro b hb
    obtain ⟨j, u, h1, h2⟩ := h'.owned b hb
    simp only at h1
    by_cases hj : j = k
    · rw [if_pos hj] at h1; cases h1
      exfalso; apply hb; rw [← h2]; exact hw.null
    · exact ⟨j, u, by simpa [hj] using h1, h2⟩

theorem stepWith_ok {g : Nat → Bool} {triv : Bool} {op : Op α} {w : World α} {sw sw' : SWorld α} (h : WInvO w sw)
    (hs : specStep op sw = some sw') (ha : Avoids triv op sw) :
    wpc (stepWith (allocOr g) triv op) (fun _ w' => WInvO w' sw') w := by
  cases op with
  | new k =>
    simp only [specStep] at hs
    split at hs
    · rename_i hk
      cases hs
      have hk' := h.dead k (by simpa using hk)
      rw [stepWith]; left; rw [wp_putObj]
      exact h.update (Or.inr ⟨hk', rfl⟩) (RepO.empty h.wf) rfl
        ⟨fun _ _ _ => rfl, fun h => absurd rfl h, Or.inl rfl, Nat.le_refl _, rfl⟩ h.wf
    · cases hs
  | newFill k n x =>
    simp only [specStep] at hs
    split at hs
    · rename_i hk
      cases hs
      have hk' := h.dead k (by simpa using hk.1)
      rw [stepWith]; refine wpc_bind (wpc_lift ?_)
      refine wpc_mono (ctorFillWith_ok h.wf n hk.2 x) ?_
      rintro v' m' ⟨h1, h2, h3, h4⟩
      left; rw [wp_putObj]
      exact h.update (Or.inr ⟨hk', rfl⟩) h1 h2 h3 h4
    · cases hs
  | push k x =>
    rcases hk : sw k with _ | s
    · simp [specStep, hk] at hs
    · simp only [specStep, hk, Option.bind_eq_bind, Option.bind_some, Option.some.injEq] at hs
      subst hs
      obtain ⟨v, h1, h2, h3⟩ := h.alive k s hk
      rw [stepWith]; refine wpc_bind (Or.inl ((wp_getObj h1 _).2 (wpc_bind (wpc_lift ?_))))
      refine wpc_mono (pushBackWith_ok h.wf h2 (val_get x _) (fun _ => Or.inl rfl)) ?_
      rintro v' m' ⟨g1, g2, g3, g4⟩
      left; rw [wp_putObj]
      exact h.update (Or.inl h1) g1 (by rw [g2, growCap_eq, h3]) g3 g4
  | pushElem k j i =>
    rcases hk : sw k with _ | s
    · simp [specStep, hk] at hs
    rcases hj : sw j with _ | t
    · simp [specStep, hk, hj] at hs
    rcases hi : t.data[i]? with _ | x
    · simp [specStep, hk, hj, hi] at hs
    simp only [specStep, hk, hj, hi, Option.bind_eq_bind, Option.bind_some, Option.some.injEq] at hs
    subst hs
    obtain ⟨v, h1, h2, h3⟩ := h.alive k s hk
    obtain ⟨u, u1, u2, u3⟩ := h.alive j t hj
    obtain ⟨hil, hix⟩ := List.getElem?_eq_some_iff.1 hi
    have hread := (u2.ne (fun h => by simp [h] at hil)).read_ok i hil
    rw [hix] at hread
    rw [stepWith]; refine wpc_bind (Or.inl ((wp_getObj h1 _).2 (wpc_bind (Or.inl ((wp_getObj u1 _).2 (wpc_bind (Or.inl ((wp_dassert _ _ _).2 ⟨by rw [u2.size]; exact hil, wpc_bind (wpc_lift ?_)⟩))))))))
    refine wpc_mono (pushBackWith_ok (x := x) h.wf h2 hread ?_) ?_
    · intro hfull
      right
      refine ⟨u.c, i, rfl, ?_, u2.fresh h.wf⟩
      rcases ha with ha | ha
      · have hu0 : u.c ≠ 0 := fun h0 => by rw [(u2.null h0).2] at hil; simp at hil
        exact h.sep j k u v (Ne.symm ha) u1 h1 hu0
      · have := ha s hk; omega
    · rintro v' m' ⟨g1, g2, g3, g4⟩
      left; rw [wp_putObj]
      exact h.update (Or.inl h1) g1 (by rw [g2, growCap_eq, h3]) g3 g4
  | pop k =>
    rcases hk : sw k with _ | s
    · simp [specStep, hk] at hs
    · simp only [specStep, hk, Option.bind_eq_bind, Option.bind_some] at hs
      split at hs
      · cases hs
      · rename_i hne
        cases hs
        obtain ⟨v, h1, h2, h3⟩ := h.alive k s hk
        rw [stepWith]; refine wpc_bind (Or.inl ((wp_getObj h1 _).2 (wpc_bind (wpc_lift ?_))))
        refine wpc_mono (popBackWith_ok h.wf h2 hne) ?_
        rintro v' m' ⟨g1, g2, g3, g4⟩
        left; rw [wp_putObj]
        exact h.update (Or.inl h1) g1 (by rw [g2, h3]; rfl) g3 g4
  | set k i x =>
    rcases hk : sw k with _ | s
    · simp [specStep, hk] at hs
    rcases hp : pyIndex s.data.length i with _ | p
    · simp [specStep, hk, hp] at hs
    simp only [specStep, hk, hp, Option.bind_eq_bind, Option.bind_some] at hs
    split at hs
    · rename_i hlen
      cases hs
      obtain ⟨v, h1, h2, h3⟩ := h.alive k s hk
      obtain ⟨hp1, hp2⟩ := pyIndex_some hp
      rw [stepWith]; left; rw [wp_bind, wp_getObj h1, wp_lift]
      refine wp_mono (setIndex_ok h.wf (h2.ne (fun h => by simp [h] at hp1)) hlen i p hp1 hp2) ?_
      rintro _ m' ⟨g1, g3, g4⟩
      have := h.update (Or.inl h1) (Or.inl g1) h3 g3 g4
      have hobj : (fun x => if x = k then some v else w.obj x) = w.obj := by
        funext y; split
        · rename_i hy; rw [hy, h1]
        · rfl
      rw [hobj] at this
      exact this
    · cases hs
  | resize k n =>
    rcases hk : sw k with _ | s
    · simp [specStep, hk] at hs
    · simp only [specStep, hk, Option.bind_eq_bind, Option.bind_some, Option.some.injEq] at hs
      subst hs
      obtain ⟨v, h1, h2, h3⟩ := h.alive k s hk
      rw [stepWith]; refine wpc_bind (Or.inl ((wp_getObj h1 _).2 (wpc_bind (wpc_lift ?_))))
      refine wpc_mono (resizeWith_ok h.wf h2 n) ?_
      rintro v' m' ⟨g1, g2, g3, g4⟩
      left; rw [wp_putObj]
      exact h.update (Or.inl h1) g1 g2 g3 g4
  | resizeFill k n x =>
    rcases hk : sw k with _ | s
    · simp [specStep, hk] at hs
    · simp only [specStep, hk, Option.bind_eq_bind, Option.bind_some, Option.some.injEq] at hs
      subst hs
      obtain ⟨v, h1, h2, h3⟩ := h.alive k s hk
      rw [stepWith]; refine wpc_bind (Or.inl ((wp_getObj h1 _).2 (wpc_bind (wpc_lift ?_))))
      refine wpc_mono (resizeFillWith_ok h.wf h2 n x) ?_
      rintro v' m' ⟨g1, g2, g3, g4⟩
      left; rw [wp_putObj]
      exact h.update (Or.inl h1) g1 g2 g3 g4
  | clear k =>
    rcases hk : sw k with _ | s
    · simp [specStep, hk] at hs
    · simp only [specStep, hk, Option.bind_eq_bind, Option.bind_some, Option.some.injEq] at hs
      subst hs
      obtain ⟨v, h1, h2, h3⟩ := h.alive k s hk
      rw [stepWith]; refine wpc_bind (Or.inl ((wp_getObj h1 _).2 (wpc_bind (wpc_lift (wpc_mono (Or.inl (clear_okO h.wf h2)) ?_)))))
      rintro v' m' ⟨rfl, g3, g4, _⟩
      left; rw [wp_putObj]
      exact h.update (Or.inl h1) (RepO.empty g4) rfl g3 g4
  | copy d s =>
    rcases hd : sw d with _ | t
    · simp [specStep, hd] at hs
    rcases hk : sw s with _ | r
    · simp [specStep, hd, hk] at hs
    simp only [specStep, hd, hk, Option.bind_eq_bind, Option.bind_some, Option.some.injEq] at hs
    subst hs
    obtain ⟨v, h1, h2, h3⟩ := h.alive d t hd
    obtain ⟨u, u1, u2, u3⟩ := h.alive s r hk
    rw [stepWith]; refine wpc_bind (Or.inl ((wp_getObj h1 _).2 (wpc_bind (Or.inl ((wp_getObj u1 _).2 ?_)))))
    by_cases hds : d = s
    · subst hds
      rw [if_pos rfl]; left; rw [wp_pure]
      have : sw.put d (some r) = sw := by
        funext y; simp only [SWorld.put]; split
        · rename_i hy; rw [hy, hk]
        · rfl
      rw [this]; exact h
    · rw [if_neg hds]; refine wpc_bind (wpc_lift ?_)
      refine wpc_mono (copyAssignWith_ok h.wf h2 u2 (h.sep d s v u hds h1 u1) ?_) ?_
      · rcases ha with ha | ha | ha
        · exact absurd ha hds
        · exact Or.inl ha
        · exact Or.inr (ha r hk)
      · rintro v' m' ⟨g1, g2, g3, g4⟩
        left; rw [wp_putObj]
        exact h.update (Or.inl h1) g1 (by rw [g2, u3]) g3 g4
  | move d s =>
    rcases hd : sw d with _ | t
    · simp [specStep, hd] at hs
    rcases hk : sw s with _ | r
    · simp [specStep, hd, hk] at hs
    simp only [specStep, hd, hk, Option.bind_eq_bind, Option.bind_some] at hs
    obtain ⟨v, h1, h2, h3⟩ := h.alive d t hd
    obtain ⟨u, u1, u2, u3⟩ := h.alive s r hk
    rw [stepWith]; refine wpc_bind (Or.inl ((wp_getObj h1 _).2 (wpc_bind (Or.inl ((wp_getObj u1 _).2 ?_)))))
    by_cases hds : d = s
    · rw [if_pos hds] at hs; cases hs
      rw [if_pos hds]; left; rw [wp_pure]; exact h
    · rw [if_neg hds] at hs; cases hs
      rw [if_neg hds]; left; rw [wp_bind, wp_lift, moveAssign, wp_bind]
      refine wp_mono (clear_okO h.wf h2) ?_
      rintro v' m' ⟨rfl, g3, g4, _⟩
      rw [wp_pure]
      simp only
      rw [wp_bind, wp_putObj, wp_putObj]
      have hc := h.update (Or.inl h1) (RepO.empty g4) rfl g3 g4
      -- `hc`: the world with `d` cleared
      obtain ⟨u', k1, k2, k3⟩ := hc.alive s r (by simp [SWorld.put, Ne.symm hds, hk])
      simp only [if_neg (Ne.symm hds)] at k1
      rw [u1] at k1; cases k1
      refine ⟨g4, ?_, ?_, ?_, ?_, hc.lost⟩
      · intro j hj
        simp only [SWorld.put] at hj ⊢
        by_cases hjs : j = s
        · simp [hjs] at hj
        · by_cases hjd : j = d
          · simp [hjd, hds] at hj
          · simp only [if_neg hjs, if_neg hjd] at hj ⊢; exact h.dead j hj
      · intro j q hq
        simp only [SWorld.put] at hq ⊢
        by_cases hjs : j = s
        · simp only [hjs, if_true] at hq ⊢
          cases hq
          exact ⟨_, rfl, RepO.empty g4, rfl⟩
        · by_cases hjd : j = d
          · simp only [hjd, if_true, if_neg hds] at hq ⊢
            cases hq
            exact ⟨u, rfl, k2, u3⟩
          · simp only [if_neg hjs, if_neg hjd] at hq ⊢
            have := hc.alive j q (by simp [SWorld.put, hjd, hq])
            simpa [hjd] using this
      · intro i j a b hij ha' hb' h0
        simp only at ha' hb'
        by_cases his : i = s
        · simp only [his, if_true, Option.some.injEq] at ha'; subst ha'; exact absurd rfl h0
        · by_cases hjs : j = s
          · simp only [hjs, if_true, Option.some.injEq] at hb'; subst hb'; exact h0
          · simp only [if_neg his, if_neg hjs] at ha' hb'
            by_cases hid : i = d
            · simp only [hid, if_true, Option.some.injEq] at ha'; subst ha'
              have hjd : j ≠ d := fun h => hij (hid.trans h.symm)
              simp only [if_neg hjd] at hb'
              exact h.sep s j u b (Ne.symm hjs) u1 hb' h0
            · simp only [if_neg hid] at ha'
              by_cases hjd : j = d
              · simp only [hjd, if_true, Option.some.injEq] at hb'; subst hb'
                exact h.sep i s a u his ha' u1 h0
              · simp only [if_neg hjd] at hb'
                exact h.sep i j a b hij ha' hb' h0
      · intro b hb
        obtain ⟨j, a, p1, p2⟩ := hc.owned b hb
        simp only at p1
        by_cases hjd : j = d
        · simp only [hjd, if_true, Option.some.injEq] at p1; subst p1
          exfalso; apply hb; rw [← p2]; exact g4.null
        · simp only [if_neg hjd] at p1
          by_cases hjs : j = s
          · subst hjs; rw [u1] at p1; cases p1
            exact ⟨d, u, by simp [hds], p2⟩
          · exact ⟨j, a, by simp [hjs, hjd, p1], p2⟩
  | drop k =>
    rcases hk : sw k with _ | s
    · simp [specStep, hk] at hs
    · simp only [specStep, hk, Option.bind_eq_bind, Option.bind_some, Option.some.injEq] at hs
      subst hs
      obtain ⟨v, h1, h2, h3⟩ := h.alive k s hk
      rw [stepWith]; refine wpc_bind (Or.inl ((wp_getObj h1 _).2 (wpc_bind (wpc_lift (wpc_mono (Or.inl (clear_okO h.wf h2)) ?_)))))
      rintro v' m' ⟨rfl, g3, g4, _⟩
      left; rw [wp_putObj]
      exact h.drop h1 g3 g4

theorem runWith_ok {g : Nat → Bool} {triv : Bool} {ops : List (Op α)} {w : World α} {sw sw' : SWorld α} (h : WInvO w sw)
    (hs : specRun ops sw = some sw') (ha : AvoidsAll triv ops sw) :
    wpc (runWith (allocOr g) triv ops) (fun _ w' => WInvO w' sw') w := by
  induction ops generalizing w sw with
  | nil =>
    simp only [specRun, Option.some.injEq] at hs
    subst hs
    exact Or.inl ((wp_pure _ _ _).2 h)
  | cons op ops ih =>
    simp only [specRun] at hs
    rcases h1 : specStep op sw with _ | s1
    · simp [h1] at hs
    · simp only [h1, Option.bind_some] at hs
      show wpc (do stepWith (allocOr g) triv op; runWith (allocOr g) triv ops) _ w
      refine wpc_bind (wpc_mono (stepWith_ok h h1 ha.1) ?_)
      intro _ w1 hw1
      exact ih hw1 hs (ha.2 s1 h1)

theorem iterate_okO {m : Mem α} {v : Vec} {l : List α} (hr : RepO m v l) : Returns (iterate v) m l m := by
  by_cases h0 : v.c = 0
  · obtain ⟨h1, rfl⟩ := hr.null h0
    unfold iterate
    rw [h1.2]
    rfl
  · exact iterate_ok (hr.rep h0)

theorem WInvO.shows {w : World α} {sw : SWorld α} (h : WInvO w sw) : Shows w sw := by
  intro k
  refine ⟨h.dead k, ?_⟩
  intro s hs
  obtain ⟨v, h1, h2, h3⟩ := h.alive k s hs
  refine ⟨v, h1, h2.size, h3, iterate_okO h2, fun hlen i hi => ?_, fun hne => ?_⟩
  · exact index_ok (h2.ne (fun h => by simp [h] at hi)) hlen i hi
  · exact ⟨front_ok (h2.ne hne) hne, back_ok (h2.ne hne) hne⟩

theorem pushBack_denied {g : Nat → Bool} {triv : Bool} {m : Mem α} {v : Vec} {l : List α} {e : Arg α}
    (hw : m.WF) (hr : RepO m v l) (hfull : l.length = v.cap) (hg : ¬ g m.next = true) :
    Faults (pushBackWith (allocOr g) triv v e) m .crash := by
  have hsz := hr.size
  unfold pushBackWith
  rw [if_pos (by omega)]
  by_cases h0 : v.sz = 0
  · rw [if_neg (by omega)]
    rcases resize_denied (triv := triv) (n := 2) hw hr (by omega) hg with ⟨v', m', e1, _, e2, _⟩ | e
    · refine faults_bind_of_wp ⟨v', m', e1, bind_faults ?_⟩
      rw [e2.1, e2.2]
      exact construct_null
    · exact bind_faults e
  · rw [if_pos h0]
    rcases resize_denied (triv := triv) (n := 2 * v.sz) hw hr (by omega) hg with ⟨_, _, _, e, _⟩ | e
    · rw [e] at hsz; exact absurd hsz h0
    · exact bind_faults e

/-- Nothing can be put into a vector whose storage has been refused. -/
theorem pushBack_hollow {al : Nat → Prog (Mem α) Nat} {triv : Bool} {m : Mem α} {v : Vec} {e : Arg α}
    (hh : Hollow v) (hc : v.cap ≠ 0) : Faults (pushBackWith al triv v e) m .crash := by
  unfold pushBackWith
  rw [if_neg (by have := hh.2; omega)]
  refine faults_bind_of_wp ((wp_pure _ _ _).2 (bind_faults ?_))
  rw [hh.1, hh.2]
  exact construct_null

/-- Operations that stop when the next request is denied. -/
theorem denied_stops {g : Nat → Bool} {triv : Bool} {w : World α} {sw : SWorld α} (hi : WInvO w sw)
    (hd' : ¬ g w.mem.next = true) :
    (∀ k n x, sw k = none → n ≠ 0 →
      Faults (stepWith (allocOr g) triv (.newFill k n x)) w .crash) ∧
    (∀ k s x, sw k = some s → s.data.length = s.cap →
      Faults (stepWith (allocOr g) triv (.push k x)) w .crash) ∧
    (∀ k s n x, sw k = some s → n ≠ 0 →
      Faults (stepWith (allocOr g) triv (.resizeFill k n x)) w .crash) ∧
    (∀ k s n, sw k = some s → n ≠ 0 → s.data ≠ [] →
      Faults (stepWith (allocOr g) triv (.resize k n)) w .crash) ∧
    (∀ d s t u, sw d = some t → sw s = some u → d ≠ s → u.data ≠ [] →
      Faults (stepWith (allocOr g) triv (.copy d s)) w .crash) := by
  have stop : ∀ {v : Vec} {l : List α} {n : Nat} {m : Mem α}, m.WF → RepO m v l → n ≠ 0 → l ≠ [] →
      ¬ g m.next = true → Faults (resizeWith (allocOr g) triv v n) m .crash := by
    intro v l n m hw hr hn hl hg
    rcases resize_denied (triv := triv) hw hr hn hg with ⟨_, _, _, e, _⟩ | e
    · exact absurd e hl
    · exact e
  refine ⟨?_, ?_, ?_, ?_, ?_⟩
  · intro k n x _ hn
    rw [stepWith]
    refine bind_faults (faults_lift ?_)
    unfold ctorFillWith
    refine faults_bind_of_wp ((wp_dassert _ _ _).2 ⟨hn, ?_⟩)
    rcases resize_denied (triv := triv) hi.wf (RepO.empty hi.wf) hn hd' with ⟨v', m', h1, _, h2, _⟩ | h
    · refine faults_bind_of_wp ⟨v', m', h1, bind_faults ?_⟩
      rw [h2.1]
      exact fill_null hn
    · exact bind_faults h
  · intro k s x hk hfull
    obtain ⟨v, h1, h2, h3⟩ := hi.alive k s hk
    rw [stepWith]
    refine faults_bind_of_wp ((wp_getObj h1 _).2 (bind_faults (faults_lift ?_)))
    exact pushBack_denied hi.wf h2 (by rw [h3]; exact hfull) hd'
  · intro k s n x hk hn
    obtain ⟨v, h1, h2, h3⟩ := hi.alive k s hk
    rw [stepWith]
    exact faults_bind_of_wp ((wp_getObj h1 _).2 (bind_faults (faults_lift (resizeFill_denied hi.wf h2 hn hd'))))
  · intro k s n hk hn hl
    obtain ⟨v, h1, h2, h3⟩ := hi.alive k s hk
    rw [stepWith]
    exact faults_bind_of_wp ((wp_getObj h1 _).2 (bind_faults (faults_lift (stop hi.wf h2 hn hl hd'))))
  · intro d s t u hdd hss hds hl
    obtain ⟨v, h1, h2, h3⟩ := hi.alive d t hdd
    obtain ⟨r, r1, r2, r3⟩ := hi.alive s u hss
    rw [stepWith]
    refine faults_bind_of_wp ((wp_getObj h1 _).2 (faults_bind_of_wp ((wp_getObj r1 _).2 ?_)))
    rw [if_neg hds]
    refine bind_faults (faults_lift ?_)
    unfold copyAssignWith
    obtain ⟨c, m1, c1, rfl, c2, c3, c4⟩ := clear_okO (triv := triv) hi.wf h2
    have hr := r2.ne hl
    obtain ⟨hc0, _⟩ := hr.buf fun h => hl (hr.null h).2
    refine faults_bind_of_wp ⟨_, _, c1, ?_⟩
    rcases resize_denied (triv := triv) c3 (RepO.empty c3) hc0 (by rw [c4]; exact hd') with ⟨v', m', e1, _, e2, _⟩ | e
    · refine faults_bind_of_wp ⟨v', m', e1, bind_faults ?_⟩
      simp only
      have hs := hr.size
      have hp : 0 < u.data.length := List.length_pos_iff.2 hl
      rw [show r.sz = (r.sz - 1) + 1 by omega]
      unfold forRange
      refine bind_faults (bind_faults ?_)
      rw [e2.1]
      exact destroy_null
    · exact bind_faults e

theorem resize_denied_empty {g : Nat → Bool} {triv : Bool} {m : Mem α} {v : Vec} {n : Nat} (hw : m.WF)
    (h2 : RepO m v []) (hn : n ≠ 0) (hd' : ¬ g m.next = true) :
    wp (resizeWith (allocOr g) triv v n) (fun v' _ => Hollow v' ∧ v'.cap = n) m := by
  unfold resizeWith
  rw [if_neg hn, wp_bind]
  refine ⟨_, _, allocOr_no hd', ?_⟩
  simp only []
  rw [wp_bind, wp_when]
  refine ⟨fun h0 => ?_, fun _ => (wp_pure _ _ _).2 ⟨⟨rfl, by simp [h2.size]⟩, rfl⟩⟩
  have hr := h2.rep h0
  rw [wp_bind, wp_dassert]
  refine ⟨(hr.buf h0).1, ?_⟩
  obtain ⟨m2, e1, _⟩ := dealloc_empty (m := m.denied) (hr.mono rfl (Nat.le_succ _)) h0 (denied_wf hw)
  have hs := hr.size
  simp only [List.length_nil] at hs
  rw [hs]
  exact (wp_bind _ _ _ _).2 ⟨(), m.denied, rfl, (), m2, e1, (wp_pure _ _ _).2 ⟨⟨rfl, by simp⟩, rfl⟩⟩

/-- A denied `resize(n)` without elements goes unnoticed. -/
theorem denied_unnoticed {g : Nat → Bool} {triv : Bool} {w : World α} {sw : SWorld α} (hi : WInvO w sw)
    (hd' : ¬ g w.mem.next = true) (k n : Nat) (hn : n ≠ 0)
    (s : SVec α) (hk : sw k = some s) (hl : s.data = []) :
    ∃ w' v, Returns (stepWith (allocOr g) triv (.resize k n)) w () w' ∧ w'.obj k = some v ∧
      v.cap = n ∧ v.c = 0 ∧ ∀ x, Faults (stepWith (allocOr g) triv (.push k x)) w' .crash := by
  obtain ⟨v, h1, h2, h3⟩ := hi.alive k s hk
  rw [hl] at h2
  have key := resize_denied_empty (triv := triv) hi.wf h2 hn hd'
  obtain ⟨v', m', e1, e2, e3⟩ := key
  refine ⟨{ mem := m', obj := fun x => if x = k then some v' else w.obj x }, v', ?_, by simp, e3, e2.1, fun x => ?_⟩
  · have := (wp_getObj h1 (fun u w1 => Returns (do putObj k (some (← lift (resizeWith (allocOr g) triv u n)))) w1 ()
      { mem := m', obj := fun x => if x = k then some v' else w.obj x })).2 ?_
    · obtain ⟨u, w1, g1, g2⟩ := this
      rw [stepWith]
      show Returns _ _ _ _
      unfold Returns
      rw [bind_returns g1]
      exact g2
    · have hl : Returns (lift (resizeWith (allocOr g) triv v n)) w v' { w with mem := m' } := by
        have e1' : resizeWith (allocOr g) triv v n w.mem = _ := e1
        unfold Returns lift
        rw [e1']
      unfold Returns
      rw [bind_returns hl]
      rfl
  · rw [stepWith]
    refine faults_bind_of_wp ((wp_getObj (v := v') (by simp) _).2 (bind_faults (faults_lift ?_)))
    unfold pushBackWith
    rw [if_neg (by have := e2.2; omega)]
    refine faults_bind_of_wp ((wp_pure _ _ _).2 (bind_faults ?_))
    rw [e2.1, e2.2]
    exact construct_null

theorem allocOr_all : (allocOr (fun _ => true) : Nat → Prog (Mem α) Nat) = alloc := by
  funext n m; exact allocOr_yes rfl

/-- With memory for the request, an operation that makes it first returns, unless it puts something
into a vector whose storage has been refused before. -/
theorem granted_returns {triv : Bool} {op : Op α} {w : World α} {sw sw' : SWorld α} (h : WInvO w sw)
    (hs : specStep op sw = some sw') (ha : Avoids triv op sw)
    (hpop : ∀ k, op ≠ .pop k) (hcopy : ∀ d s, op ≠ .copy d s)
    (hh : ∀ k, ((∃ x, op = .push k x) ∨ ∃ j i, op = .pushElem k j i) → ∀ v, w.obj k = some v → v.c = 0 → v.cap = 0) :
    wp (stepWith (allocOr fun _ => true) triv op) (fun _ _ => True) w := by
  have rep : ∀ {v : Vec} {l : List α}, RepO w.mem v l → (v.c = 0 → v.cap = 0) → Rep w.mem v l := by
    intro v l hr hcap
    rcases hr with hr | ⟨⟨h1, h2⟩, rfl⟩
    · exact hr
    · have : v = Vec.empty := by
        cases v with
        | mk sz cap c => simp only at h1 h2; simp only [Vec.empty, Vec.mk.injEq]; exact ⟨h2, hcap h1, h1⟩
      rw [this]; exact Rep.empty h.wf
  have store : ∀ {k : Nat} {p : Prog (Mem α) Vec} {Q : Vec → Mem α → Prop}, wp p Q w.mem →
      wp (lift p >>= fun v => putObj k (some v)) (fun _ _ => True) w := by
    intro k p Q hp
    rw [wp_bind, wp_lift]
    exact wp_mono hp (fun _ _ _ => (wp_putObj _ _ _ _).2 trivial)
  rw [allocOr_all]
  cases op with
  | new k => exact (wp_putObj _ _ _ _).2 trivial
  | newFill k n x =>
    simp only [specStep] at hs
    split at hs
    · rename_i hk
      exact store (ctorFill_ok h.wf n hk.2 x)
    · cases hs
  | push k x =>
    rcases hk : sw k with _ | s
    · simp [specStep, hk] at hs
    · obtain ⟨v, h1, h2, h3⟩ := h.alive k s hk
      rw [stepWith, wp_bind, wp_getObj h1]
      exact store (pushBack_ok h.wf (rep h2 (hh k (Or.inl ⟨x, rfl⟩) v h1)) (val_get x _) (fun _ => Or.inl rfl))
  | pushElem k j i =>
    rcases hk : sw k with _ | s
    · simp [specStep, hk] at hs
    rcases hj : sw j with _ | t
    · simp [specStep, hk, hj] at hs
    rcases hi : t.data[i]? with _ | x
    · simp [specStep, hk, hj, hi] at hs
    obtain ⟨v, h1, h2, h3⟩ := h.alive k s hk
    obtain ⟨u, u1, u2, u3⟩ := h.alive j t hj
    obtain ⟨hil, hix⟩ := List.getElem?_eq_some_iff.1 hi
    have hread := (u2.ne (fun h => by simp [h] at hil)).read_ok i hil
    rw [hix] at hread
    rw [stepWith, wp_bind, wp_getObj h1, wp_bind, wp_getObj u1, wp_bind, wp_dassert]
    refine ⟨by rw [u2.size]; exact hil, ?_⟩
    refine store (pushBack_ok (x := x) h.wf (rep h2 (hh k (Or.inr ⟨j, i, rfl⟩) v h1)) hread ?_)
    intro hfull
    right
    refine ⟨u.c, i, rfl, ?_, u2.fresh h.wf⟩
    rcases ha with ha | ha
    · have hu0 : u.c ≠ 0 := fun h0 => by rw [(u2.null h0).2] at hil; simp at hil
      exact h.sep j k u v (Ne.symm ha) u1 h1 hu0
    · have := ha s hk; omega
  | pop k => exact absurd rfl (hpop k)
  | set k i x =>
    rcases hk : sw k with _ | s
    · simp [specStep, hk] at hs
    rcases hp : pyIndex s.data.length i with _ | p
    · simp [specStep, hk, hp] at hs
    simp only [specStep, hk, hp, Option.bind_eq_bind, Option.bind_some] at hs
    split at hs
    · rename_i hlen
      obtain ⟨v, h1, h2, h3⟩ := h.alive k s hk
      obtain ⟨hp1, hp2⟩ := pyIndex_some hp
      rw [stepWith, wp_bind, wp_getObj h1, wp_lift]
      exact wp_mono (setIndex_ok h.wf (h2.ne (fun h => by simp [h] at hp1)) hlen i p hp1 hp2) (fun _ _ _ => trivial)
    · cases hs
  | resize k n =>
    rcases hk : sw k with _ | s
    · simp [specStep, hk] at hs
    · obtain ⟨v, h1, h2, h3⟩ := h.alive k s hk
      rw [stepWith, wp_bind, wp_getObj h1]
      rcases h2 with h2 | ⟨h2, _⟩
      · exact store (resize_ok h.wf h2 n)
      · rw [resizeWith_hollow h2]
        exact store (resize_ok h.wf (Rep.empty h.wf) n)
  | resizeFill k n x =>
    rcases hk : sw k with _ | s
    · simp [specStep, hk] at hs
    · obtain ⟨v, h1, h2, h3⟩ := h.alive k s hk
      rw [stepWith, wp_bind, wp_getObj h1]
      rcases h2 with h2 | ⟨h2, _⟩
      · exact store (resizeFill_ok h.wf h2 n x)
      · rw [resizeFillWith_hollow h2]
        exact store (resizeFill_ok h.wf (Rep.empty h.wf) n x)
  | clear k =>
    rcases hk : sw k with _ | s
    · simp [specStep, hk] at hs
    · obtain ⟨v, h1, h2, h3⟩ := h.alive k s hk
      rw [stepWith, wp_bind, wp_getObj h1]
      exact store (clear_okO h.wf h2)
  | copy d s => exact absurd rfl (hcopy d s)
  | move d s =>
    rcases hd : sw d with _ | t
    · simp [specStep, hd] at hs
    rcases hk : sw s with _ | r
    · simp [specStep, hd, hk] at hs
    obtain ⟨v, h1, h2, h3⟩ := h.alive d t hd
    obtain ⟨u, u1, u2, u3⟩ := h.alive s r hk
    rw [stepWith, wp_bind, wp_getObj h1, wp_bind, wp_getObj u1]
    by_cases hds : d = s
    · rw [if_pos hds, wp_pure]; trivial
    · rw [if_neg hds, wp_bind, wp_lift, moveAssign, wp_bind]
      refine wp_mono (clear_okO h.wf h2) ?_
      intro _ _ _
      rw [wp_pure]
      simp only
      rw [wp_bind, wp_putObj, wp_putObj]
      trivial
  | drop k =>
    rcases hk : sw k with _ | s
    · simp [specStep, hk] at hs
    · obtain ⟨v, h1, h2, h3⟩ := h.alive k s hk
      rw [stepWith, wp_bind, wp_getObj h1, wp_bind, wp_lift]
      exact wp_mono (clear_okO h.wf h2) (fun _ _ _ => (wp_putObj _ _ _ _).2 trivial)

end Verif.Vec
