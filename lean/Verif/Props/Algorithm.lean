import Verif.Algorithm
import Verif.VectorWorld

/-! # Properties of `find` and `for_each` (C60) -/

namespace Verif.Alg

open Prog

variable {σ ι α : Type}

/-- In state `s`, the positions from `b` up to (not including) `e` are `ps`. -/
inductive Path (it : Iter σ ι α) (s : σ) (e : ι) : ι → List ι → Prop
  | done (h : it.ne e e = false) : Path it s e e []
  | more {p q : ι} {ps : List ι} (h : it.ne p e = true) (hn : Returns (it.next p) s q s)
      (hp : Path it s e q ps) : Path it s e p (p :: ps)

/-- **C60**, `find`: over any range whose elements can be read, `find` returns the first
position whose element equals the argument, or `end` if there is none. -/
theorem find_first (it : Iter σ ι α) (eq : α → α → Bool) (obj : α) (s : σ) (b e : ι) (ps : List ι)
    (val : ι → α) (hpath : Path it s e b ps) (hval : ∀ p ∈ ps, Returns (it.deref p) s (val p) s) :
    ∃ r, Returns (find it eq obj b e) s r s ∧
      ((∃ before after, ps = before ++ r :: after ∧ eq (val r) obj = true ∧
          ∀ p ∈ before, eq (val p) obj = false) ∨
        (r = e ∧ ∀ p ∈ ps, eq (val p) obj = false)) := by
  induction hpath with
  | done h =>
    refine ⟨e, ?_, Or.inr ⟨rfl, by simp⟩⟩
    unfold Returns find
    simp [h]; rfl
  | @more p q ps h hn _ ih =>
    have hd := hval p (List.mem_cons_self ..)
    unfold find
    by_cases hq : eq (val p) obj = true
    · refine ⟨p, ?_, Or.inl ⟨[], ps, rfl, hq, by simp⟩⟩
      unfold Returns
      rw [if_pos h, bind_returns hd, if_pos hq]; rfl
    · obtain ⟨r, h1, h2⟩ := ih fun x hx => hval x (List.mem_cons_of_mem _ hx)
      refine ⟨r, ?_, ?_⟩
      · unfold Returns
        rw [if_pos h, bind_returns hd, if_neg hq, bind_returns hn]
        exact h1
      · rcases h2 with ⟨bf, af, e1, e2, e3⟩ | ⟨e1, e2⟩
        · refine Or.inl ⟨p :: bf, af, by rw [e1]; rfl, e2, ?_⟩
          intro x hx
          rcases List.mem_cons.1 hx with rfl | hx
          · simpa using hq
          · exact e3 x hx
        · refine Or.inr ⟨e1, ?_⟩
          intro x hx
          rcases List.mem_cons.1 hx with rfl | hx
          · simpa using hq
          · exact e2 x hx

theorem Path.head {it : Iter σ ι α} {s : σ} {e b : ι} {ps : List ι} (h : Path it s e b ps) :
    b = ps.headD e := by cases h <;> rfl

/-- **C60**, `for_each`: if the range consists of the positions `ps` in every state satisfying
`J` and the callback keeps `J`, then `for_each` behaves exactly like calling the callback once
on each of the positions, in order. -/
theorem forEach_once (it : Iter σ ι α) (cb : ι → Prog σ Unit) (J : σ → Prop) (b e : ι) (ps : List ι)
    (hpath : ∀ s, J s → Path it s e b ps)
    (hcb : ∀ p ∈ ps, ∀ s s', J s → Returns (cb p) s () s' → J s')
    (s : σ) (hs : J s) : forEach it cb b e s = seqAll (ps.map cb) s := by
  induction ps generalizing b s with
  | nil =>
    have hp := hpath s hs
    cases hp with
    | done h => unfold forEach; simp [h]; rfl
  | cons p ps ih =>
    have hb : b = p := (hpath s hs).head
    subst hb
    have hne : it.ne b e = true := by cases hpath s hs; assumption
    have htail : ∀ t, J t → Returns (it.next b) t (ps.headD e) t ∧ Path it t e (ps.headD e) ps := by
      intro t ht
      cases hpath t ht with
      | more h hn hp => rw [← hp.head]; exact ⟨hn, hp⟩
    unfold forEach
    rw [if_pos hne]
    show (cb b >>= fun _ => _) s = (cb b >>= fun _ => seqAll (ps.map cb)) s
    rw [Prog.bind_apply, Prog.bind_apply]
    rcases hc : cb b s with _ | f | ⟨⟨⟩, t⟩
    · rfl
    · rfl
    · have ht : J t := hcb b (List.mem_cons_self ..) s t hs hc
      show (it.next b >>= fun b' => forEach it cb b' e) t = _
      rw [bind_returns (htail t ht).1]
      exact ih (ps.headD e) (fun u hu => (htail u hu).2)
        (fun q hq => hcb q (List.mem_cons_of_mem _ hq)) t ht

theorem primitive_path (m : Vec.Mem α) (c : Nat) (n lo : Nat) :
    Path primitive m (c, lo + n) (c, lo) ((List.range' lo n).map fun i => (c, i)) := by
  induction n generalizing lo with
  | zero => exact .done (by simp [primitive])
  | succ n ih =>
    refine .more (by simp [primitive]) (q := (c, lo + 1)) rfl ?_
    have := ih (lo + 1)
    rwa [show lo + 1 + n = lo + (n + 1) by omega] at this

/-- **C60**, `find` on a vector: after any history, `find(v.begin(), v.end(), x)` returns
`v.begin() + i` for the least index `i` with `v[i] == x`, and `v.end()` if there is none. -/
theorem find_vector (triv : Bool) (ops : List (Vec.Op α)) (sw : Vec.SWorld α)
    (hs : Vec.specRun ops (fun _ => none) = some sw) (ha : Vec.AvoidsAll triv ops (fun _ => none))
    (k : Nat) (l : Vec.SVec α) (hk : sw k = some l) (eq : α → α → Bool) (x : α) :
    ∃ w v, Returns (Vec.run triv ops) Vec.World.init () w ∧ w.obj k = some v ∧
      Returns (find primitive eq x (vecBegin v) (vecEnd v)) w.mem
        (v.c, l.data.findIdx (fun y => eq y x)) w.mem := by
  obtain ⟨_, w, h1, h2⟩ := Vec.run_ok (triv := triv) Vec.WInv.init hs ha
  obtain ⟨v, g1, g2, g3⟩ := h2.alive k l hk
  refine ⟨w, v, h1, g1, ?_⟩
  have key : ∀ n lo, lo + n = l.data.length → (∀ i (h : i < l.data.length), i < lo → eq l.data[i] x = false) →
      Returns (find primitive eq x (v.c, lo) (v.c, l.data.length)) w.mem
        (v.c, l.data.findIdx (fun y => eq y x)) w.mem := by
    intro n
    induction n with
    | zero =>
      intro lo hlo hbefore
      unfold find Returns
      have : lo = l.data.length := by omega
      subst this
      rw [if_neg (by simp [primitive])]
      have : l.data.findIdx (fun y => eq y x) = l.data.length := by
        rw [List.findIdx_eq_length]
        intro y hy
        obtain ⟨i, hi, rfl⟩ := List.getElem_of_mem hy
        exact hbefore i hi hi
      rw [this]; rfl
    | succ n ih =>
      intro lo hlo hbefore
      have hlt : lo < l.data.length := by omega
      unfold find Returns
      rw [if_pos (by simp [primitive]; omega)]
      rw [bind_returns (show Returns (primitive.deref (v.c, lo)) w.mem l.data[lo] w.mem from
        g2.read_ok lo hlt)]
      by_cases hq : eq l.data[lo] x = true
      · rw [if_pos hq]
        have : l.data.findIdx (fun y => eq y x) = lo := by
          rw [List.findIdx_eq hlt]
          exact ⟨hq, fun j hj => hbefore j (by omega) hj⟩
        rw [this]; rfl
      · rw [if_neg hq, bind_returns (show Returns (primitive.next (v.c, lo)) w.mem (v.c, lo + 1) w.mem from rfl)]
        refine ih (lo + 1) (by omega) fun i hi hlt' => ?_
        rcases Nat.lt_succ_iff_lt_or_eq.1 hlt' with h | h
        · exact hbefore i hi h
        · subst h; simpa using hq
  unfold vecBegin vecEnd
  rw [g2.size]
  exact key l.data.length 0 (by omega) (by omega)

theorem updateWith_ok {m : Vec.Mem α} {v : Vec.Vec} {l : List α} (hw : m.WF) (hr : Vec.Rep m v l)
    (f : α → α) (i : Nat) (hi : i < l.length) :
    wp (updateWith f (v.c, i)) (fun _ m' => Vec.Rep m' v (l.set i (f l[i])) ∧ m'.WF) m := by
  unfold updateWith
  rw [wp_bind, wp_of_returns (hr.read_ok i hi)]
  have hv0 : v.c ≠ 0 := fun h => by simp [(hr.null h).2] at hi
  obtain ⟨h0, hle, g, hblk, hg⟩ := hr.buf hv0
  have hsz := hr.size
  have h := Vec.assign_ok (i := i) (y := l[i]) hv0 (Vec.val_get (f l[i]) m) hblk (show i < v.cap by omega)
    (by simp [hg, hi])
  rw [wp_of_returns h]
  refine ⟨⟨fun h => absurd h hv0, fun _ => ⟨h0, by simpa using hle, ?_⟩, by simpa using hsz, hr.fresh⟩,
    ⟨hw.pos, ?_, ?_⟩⟩
  · refine ⟨(fun y => if y = i then some (f l[i]) else g y), by simp [Vec.Mem.put], ?_⟩
    intro j
    simp only [hg]
    grind
  · intro b hb
    have hfr := hr.fresh
    simp only [Vec.Mem.wrote, Vec.Mem.put] at hb ⊢
    rw [if_neg (by omega)]; exact hw.unused b hb
  · have := hw.null
    simp only [Vec.Mem.wrote, Vec.Mem.put]
    rw [if_neg (Ne.symm hv0)]; exact this

/-- **C60**, `for_each` on a vector with a callback that updates its argument in place: after
any history, every element has been updated exactly once. -/
theorem forEach_vector (triv : Bool) (ops : List (Vec.Op α)) (sw : Vec.SWorld α)
    (hs : Vec.specRun ops (fun _ => none) = some sw) (ha : Vec.AvoidsAll triv ops (fun _ => none))
    (k : Nat) (l : Vec.SVec α) (hk : sw k = some l) (f : α → α) :
    ∃ w v m', Returns (Vec.run triv ops) Vec.World.init () w ∧ w.obj k = some v ∧
      Returns (forEach primitive (updateWith f) (vecBegin v) (vecEnd v)) w.mem () m' ∧
      Returns (Vec.iterate v) m' (l.data.map f) m' := by
  obtain ⟨_, w, h1, h2⟩ := Vec.run_ok (triv := triv) Vec.WInv.init hs ha
  obtain ⟨v, g1, g2, g3⟩ := h2.alive k l hk
  have hfe := forEach_once primitive (updateWith f) (fun _ => True) (v.c, 0) (v.c, l.data.length)
    ((List.range' 0 l.data.length).map fun i => (v.c, i))
    (fun m _ => by have := primitive_path m v.c l.data.length 0; rwa [Nat.zero_add] at this)
    (fun _ _ _ _ _ _ => trivial) w.mem trivial
  have key : ∀ n lo m, lo + n = l.data.length → m.WF →
      Vec.Rep m v ((l.data.take lo).map f ++ l.data.drop lo) →
      wp (seqAll (((List.range' lo n).map fun i => (v.c, i)).map (updateWith f)))
        (fun _ m' => Vec.Rep m' v (l.data.map f)) m := by
    intro n
    induction n with
    | zero =>
      intro lo m hlo _ hr
      have : lo = l.data.length := by omega
      subst this
      exact (wp_pure _ _ _).2 (by simpa using hr)
    | succ n ih =>
      intro lo m hlo hw hr
      have hlt : lo < l.data.length := by omega
      show wp (updateWith f (v.c, lo) >>= fun _ => seqAll _) _ m
      rw [wp_bind]
      refine wp_mono (updateWith_ok hw hr f lo (by simp; omega)) ?_
      rintro _ m1 ⟨r1, w1⟩
      refine ih (lo + 1) m1 (by omega) w1 ?_
      have heq : (l.data.take (lo + 1)).map f ++ l.data.drop (lo + 1) =
          ((l.data.take lo).map f ++ l.data.drop lo).set lo
            (f (((l.data.take lo).map f ++ l.data.drop lo)[lo]'(by simp; omega))) := by
        apply List.ext_getElem?
        intro j
        grind
      rw [heq]; exact r1
  obtain ⟨_, m', k1, k2⟩ := key l.data.length 0 w.mem (by omega) h2.wf (by simpa using g2)
  refine ⟨w, v, m', h1, g1, ?_, Vec.iterate_ok k2⟩
  unfold vecBegin vecEnd Returns
  rw [g2.size, hfe]
  exact k1

/-- A history with a four-element vector meets the hypotheses. -/
example : ∃ sw, Vec.specRun [Vec.Op.new 0, .push 0 5, .push 0 7, .push 0 7, .push 0 9]
      (fun _ => none) = some sw ∧ (sw 0).map (·.data) = some [5, 7, 7, 9] ∧
    Vec.AvoidsAll false [Vec.Op.new 0, .push 0 5, .push 0 7, .push 0 7, .push 0 9] (fun _ => none) := by
  refine ⟨_, rfl, rfl, ?_⟩
  simp [Vec.AvoidsAll, Vec.Avoids]

end Verif.Alg
